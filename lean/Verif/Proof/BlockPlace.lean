import Verif.Proof.BlockSwap

/-
Placing a tree in which a block was replaced.
-/
namespace Verif
open Spec PTree Lua

mutual
/-- the tree ends in a token -/
def solid : PTree → Bool
  | .tok _ => true
  | .err _ => false
  | .errNode _ _ => false
  | .node _ cs => solidL cs
def solidL : List PTree → Bool
  | [] => false
  | [t] => solid t
  | _ :: t :: ts => solidL (t :: ts)
end

mutual
theorem solid_yield {t : PTree} (h : solid t = true) : yield t ≠ [] := by
  cases t with
  | tok k => simp [PTree.yield]
  | err e => simp [solid] at h
  | errNode cs e => simp [solid] at h
  | node k cs => simp only [solid] at h; simpa [PTree.yield] using solidL_yield h
theorem solidL_yield {ts : List PTree} (h : solidL ts = true) : yieldL ts ≠ [] := by
  match ts with
  | [] => simp [solidL] at h
  | [t] => simp only [solidL] at h; simpa [yieldL] using solid_yield h
  | _ :: t :: ts =>
    simp only [solidL] at h
    have := solidL_yield h
    simp only [yieldL] at this ⊢
    simp at this ⊢
    intro _ h2
    exact this h2
end

theorem solidL_append {a b : List PTree} (h : solidL b = true) : solidL (a ++ b) = true := by
  induction a with
  | nil => exact h
  | cons t ts ih =>
    cases hts : ts ++ b with
    | nil => rw [hts] at ih; simp [solidL] at ih
    | cons s r => rw [List.cons_append, hts]; rw [hts] at ih; simpa [solidL] using ih

theorem solidL_cons {t : PTree} {ts : List PTree} (h : ts = [] → solid t = true) (h2 : ts ≠ [] → solidL ts = true) :
    solidL (t :: ts) = true := by
  cases ts with
  | nil => simpa [solidL] using h rfl
  | cons s r => simpa [solidL] using h2 (by simp)

/-- statements end in a token -/
theorem deriv_solid {x nt ts} (h : Deriv x nt ts) : nt ≠ .block → nt ≠ .elseOpt → ts ≠ [] → solidL ts = true := by
  induction h <;> intro h1 h2 h3
  case stmtsCons _ ih1 ih2 => exact solidL_cons (fun _ => by simpa [solidL] using ih1 (by simp) (by simp) (by simp)) (fun h => ih2 (by simp) (by simp) h)
  case stmtsSemi ih1 ih2 => 
    refine solidL_cons (by simp) (fun _ => solidL_cons (fun _ => by simp [solid]) (fun h => ih2 (by simp) (by simp) h))
  case tailCons ih1 ih2 =>
    refine solidL_cons (by simp) (fun _ => solidL_cons (fun _ => by simpa [solidL] using ih1 (by simp) (by simp) (by simp)) (fun h => ih2 (by simp) (by simp) h))
  case multival ih1 ih2 =>
    simp only [solidL, solid]
    exact solidL_cons (fun _ => by simpa [solidL] using ih1 (by simp) (by simp) (by simp)) (fun h => ih2 (by simp) (by simp) h)
  case itemsCons ih1 ih2 =>
    refine solidL_cons (by simp) (fun _ => solidL_cons (fun _ => by simp [solid, solidL]) (fun h => ih2 (by simp) (by simp) h))
  case nameTailCons ih =>
    refine solidL_cons (by simp) (fun _ => solidL_cons (fun _ => by simp [solid, solidL]) (fun h => ih (by simp) (by simp) h))
  case pathCons ih =>
    refine solidL_cons (by simp) (fun _ => solidL_cons (fun _ => by simp [solid, solidL]) (fun h => ih (by simp) (by simp) h))
  case localNames ih =>
    simp only [solidL, solid]
    exact solidL_cons (fun _ => by simp [solid, solidL]) (fun h => ih (by simp) (by simp) h)
  case table => 
    simp only [solidL, solid]
    exact solidL_cons (by simp) (fun _ => solidL_append (by simp [solidL, solid]))
  case argsTable => 
    simp only [solidL, solid]
    exact solidL_cons (by simp) (fun _ => solidL_append (by simp [solidL, solid]))
  case ifStmt =>
    simp only [solidL, solid]
    exact solidL_cons (by simp) (fun _ => solidL_append (by simp [solidL, solid]))
  all_goals (simp_all [solidL, solid])


/-! ### Placement looks only at the tokens it consumes -/

/-- no trivia at the start -/
def StartsReal (S : List Lx) : Prop := ∀ l, S.head? = some l → isTriv l = false

theorem lead_append {A S : List Lx} (h : StartsReal S ∨ realKinds A ≠ []) :
    lead (A ++ S) = lead A ∧ afterTriv (A ++ S) = afterTriv A ++ S := by
  induction A with
  | nil =>
    rcases h with h | h
    · cases S with
      | nil => simp [lead, afterTriv]
      | cons l S => have := h l rfl; simp [lead, afterTriv, this]
    · simp [realKinds] at h
  | cons l A ih =>
    by_cases hl : isTriv l = true
    · obtain ⟨h1, h2⟩ := ih (by
        rcases h with h | h
        · exact .inl h
        · right; simpa [realKinds, hl] using h)
      simp only [lead, afterTriv] at h1 h2
      simp [lead, afterTriv, hl, h1, h2]
    · simp [lead, afterTriv, hl]

theorem startsReal_afterTriv (T : List Lx) : StartsReal (afterTriv T) := by
  intro l hl
  induction T with
  | nil => simp [afterTriv] at hl
  | cons x T ih =>
    by_cases hx : isTriv x = true
    · simp only [afterTriv, List.dropWhile_cons, hx, if_true] at hl
      exact ih hl
    · simp only [afterTriv, List.dropWhile_cons, hx] at hl
      simp at hl
      subst hl
      simpa using hx

mutual
theorem place_local (n n' : Nat) (t : PTree) (A S : List Lx) (r : List SyntaxKind) (hA : realKinds A = yield t ++ r)
    (h : StartsReal S ∨ r ≠ [] ∨ solid t = true) :
    (place n t (A ++ S)).greens = (place n' t A).greens ∧ (place n t (A ++ S)).rest = (place n' t A).rest ++ S := by
  have hh : StartsReal S ∨ realKinds A ≠ [] := by
    rcases h with h | h | h
    · exact .inl h
    · right; rw [hA]; simp [h]
    · right; rw [hA]; simp [solid_yield h]
  obtain ⟨l1, l2⟩ := lead_append hh
  cases t with
  | tok k =>
    have hne : afterTriv A ≠ [] := by
      intro e
      rw [← realKinds_afterTriv, e] at hA
      simp [realKinds, PTree.yield] at hA
    simp only [place, l1, l2]
    cases hA' : afterTriv A with
    | nil => exact absurd hA' hne
    | cons l r => simp
  | err e => simp [place]
  | node k cs =>
    simp only [place, l1, l2]
    obtain ⟨g1, g2⟩ := placeL_local n n' cs (afterTriv A) S r (by rw [realKinds_afterTriv, hA]; rfl)
      (by simpa [solid] using h)
    simp [g1, g2]
  | errNode cs e =>
    simp only [place, l1, l2]
    obtain ⟨g1, g2⟩ := placeL_local n n' cs (afterTriv A) S r (by rw [realKinds_afterTriv, hA]; rfl)
      (by
        rcases h with h | h | h
        · exact .inl h
        · exact .inr (.inl h)
        · simp [solid] at h)
    simp [g1, g2]
theorem placeL_local (n n' : Nat) (ts : List PTree) (A S : List Lx) (r : List SyntaxKind) (hA : realKinds A = yieldL ts ++ r)
    (h : StartsReal S ∨ r ≠ [] ∨ solidL ts = true) :
    (placeL n ts (A ++ S)).greens = (placeL n' ts A).greens ∧ (placeL n ts (A ++ S)).rest = (placeL n' ts A).rest ++ S := by
  cases ts with
  | nil => simp [placeL]
  | cons t ts =>
    have hA' : realKinds A = yield t ++ (yieldL ts ++ r) := by rw [hA]; simp [yieldL]
    obtain ⟨g1, g2⟩ := place_local n n' t A S (yieldL ts ++ r) hA' (by
      rcases h with h | h | h
      · exact .inl h
      · right; left; simp [h]
      · cases ts with
        | nil => right; right; simpa [solidL] using h
        | cons t2 ts2 =>
          right; left
          simp only [solidL] at h
          have := solidL_yield h
          intro e
          exact this (List.append_eq_nil_iff.1 e).1)
    have hrest := realKinds_suffix n' hA'
    by_cases hts : ts = []
    · subst hts
      simp only [placeL, g1, g2]
      simp
    · obtain ⟨g3, g4⟩ := placeL_local n n' ts (place n' t A).rest S r hrest (by
        rcases h with h | h | h
        · exact .inl h
        · exact .inr (.inl h)
        · cases ts with
          | nil => exact absurd rfl hts
          | cons t2 ts2 => right; right; simpa [solidL] using h)
      simp only [placeL, g1, g2, g3, g4]
      simp
end

theorem place_n (n n' : Nat) (t : PTree) (A : List Lx) (r : List SyntaxKind) (hA : realKinds A = yield t ++ r) :
    (place n t A).greens = (place n' t A).greens ∧ (place n t A).rest = (place n' t A).rest := by
  have := place_local n n' t A [] r hA (.inl (by simp [StartsReal]))
  simpa using this

theorem placeL_n (n n' : Nat) (ts : List PTree) (A : List Lx) (r : List SyntaxKind) (hA : realKinds A = yieldL ts ++ r) :
    (placeL n ts A).greens = (placeL n' ts A).greens ∧ (placeL n ts A).rest = (placeL n' ts A).rest := by
  have := placeL_local n n' ts A [] r hA (.inl (by simp [StartsReal]))
  simpa using this

/-! ### Swapping an element of a tree -/

/-- `g'` is `g` with the element `x` between the leaves `a` and `b` replaced by `y` -/
inductive Swap (x y : Green) : List Lx → List Lx → Green → Green → Prop
  | here : Swap x y [] [] x y
  | down {k pre c c' post a b} : Swap x y a b c c' →
      Swap x y (Green.leavesL pre ++ a) (b ++ Green.leavesL post) (.node k (pre ++ c :: post)) (.node k (pre ++ c' :: post))

theorem Ctx.swap {x y g p a b} (h : Ctx x g p a b) : Swap x y a b g (Green.replaceAt y p g) := by
  induction h with
  | here => exact .here
  | @down k pre c post p a b _ ih =>
    have : Green.replaceAt y (pre.length :: p) (.node k (pre ++ c :: post)) =
        .node k (pre ++ Green.replaceAt y p c :: post) := by
      simp only [Green.replaceAt, modify_mid]
    rw [this]
    exact .down ih

theorem Swap.leaves {x y a b g g'} (h : Swap x y a b g g') : g.leaves = a ++ x.leaves ++ b ∧ g'.leaves = a ++ y.leaves ++ b := by
  induction h with
  | here => simp
  | down _ ih => simp [Green.leaves, Green.leavesL, ih.1, ih.2]

/-- the new block: `us` placed on the tokens `X` -/
structure NewBlock (us : List PTree) (m : Nat) (X : List Lx) : Prop where
  rest : (placeL m us X).rest = []
  kinds : realKinds X = yieldL us
  solid : solidL us = true
  start : StartsReal X

theorem NewBlock.leaves {us m X} (h : NewBlock us m X) : Green.leavesL (placeL m us X).greens = X := by
  have := placeL_leaves m us X
  rw [h.rest] at this
  simpa using this

theorem leavesL_lead (T : List Lx) : Green.leavesL (lead T) ++ afterTriv T = T := by
  have := List.takeWhile_append_dropWhile (p := isTriv) (l := T)
  have key : ∀ l : List Lx, Green.leavesL (l.map leaf) = l := by
    intro l; induction l with
    | nil => rfl
    | cons a l ih => simp [Green.leavesL, leaf, Green.leaves] at ih ⊢; try exact ih
  simp only [lead, key, afterTriv]
  exact this

theorem realKinds_append (a b : List Lx) : realKinds (a ++ b) = realKinds a ++ realKinds b := by
  simp [realKinds]

theorem realKinds_lead (T : List Lx) : realKinds (Green.leavesL (lead T)) = [] := by
  have h1 := leavesL_lead T
  have h2 := realKinds_afterTriv T
  have h3 : realKinds (Green.leavesL (lead T)) ++ realKinds (afterTriv T) = realKinds T := by
    rw [← realKinds_append, h1]
  rw [h2] at h3
  simpa using h3

theorem NewBlock.ne {us m X} (h : NewBlock us m X) : X ≠ [] := by
  rintro rfl
  have := h.kinds
  exact solidL_yield h.solid this.symm

theorem startsReal_append {A B : List Lx} (h : StartsReal A) (hne : A ≠ []) : StartsReal (A ++ B) := by
  cases A with
  | nil => exact absurd rfl hne
  | cons a A => intro l hl; exact h l (by simpa using hl)

theorem swap_token {x y : Green} {a b k w c'} (hx : x.isNode = true) (h : Swap x y a b (.token k w) c') : False := by
  cases h with
  | here => simp [Green.isNode] at hx

mutual
theorem place_swap {us : List PTree} {m : Nat} {X : List Lx} (hb : NewBlock us m X) {gs : List Green} (n n' : Nat)
    (t : PTree) {T : List Lx} {r : List SyntaxKind} {pre post : List Green} {c c' : Green} {a b : List Lx}
    (hT : realKinds T = yield t ++ r) (he : errors t = []) (hg : (place n t T).greens = pre ++ c :: post)
    (hs : Swap (.node .block gs) (.node .block (placeL m us X).greens) a b c c') :
    ∃ t', RepL us [t] [t'] ∧
      (place n' t' (Green.leavesL pre ++ a ++ X ++ b ++ Green.leavesL post ++ (place n t T).rest)).greens = pre ++ c' :: post ∧
      (place n' t' (Green.leavesL pre ++ a ++ X ++ b ++ Green.leavesL post ++ (place n t T).rest)).rest = (place n t T).rest ∧
      realKinds (Green.leavesL pre ++ a ++ X ++ b ++ Green.leavesL post ++ (place n t T).rest) = yield t' ++ r ∧
      StartsReal (Green.leavesL gs ++ b ++ Green.leavesL post ++ (place n t T).rest) := by
  have htokens : ∀ {l : List Lx} {q : List Green}, l.map leaf = q → c ∈ q → False := by
    intro l q e hc
    rw [← e, List.mem_map] at hc
    obtain ⟨x, _, rfl⟩ := hc
    exact swap_token rfl hs
  cases t with
  | tok k =>
    exfalso
    simp only [place] at hg
    cases hA : afterTriv T with
    | nil =>
      rw [hA] at hg
      simp only [lead] at hg
      exact htokens hg (by simp)
    | cons l r' =>
      rw [hA] at hg
      simp only [lead] at hg
      exact htokens (l := T.takeWhile isTriv ++ [l]) (by simpa using hg) (by simp)
  | err e => simp [errors] at he
  | errNode cs e => simp [errors] at he
  | node k cs =>
    have hrest := realKinds_suffix n hT
    simp only [place] at hg hrest ⊢
    have hsplit : pre = lead T ∧ c = .node k (placeL n cs (afterTriv T)).greens ∧ post = [] := by
      rcases List.append_eq_append_iff.1 hg with ⟨q, e1, e2⟩ | ⟨q, e1, e2⟩
      · cases q with
        | nil =>
          simp only [List.append_nil, List.nil_append, List.cons.injEq] at e1 e2
          exact ⟨e1, e2.1.symm, e2.2.symm⟩
        | cons z q => simp at e2
      · cases q with
        | nil =>
          simp only [List.append_nil, List.nil_append, List.cons.injEq] at e1 e2
          exact ⟨e1.symm, e2.1, e2.2⟩
        | cons z q =>
          exfalso
          simp only [List.cons_append, List.cons.injEq] at e2
          refine htokens (l := T.takeWhile isTriv) (q := lead T) rfl ?_
          rw [e1, e2.1]; simp
    obtain ⟨rfl, rfl, rfl⟩ := hsplit
    generalize hc : Green.node k (placeL n cs (afterTriv T)).greens = c at hs
    cases hs with
    | here =>
      simp only [Green.node.injEq] at hc
      obtain ⟨rfl, rfl⟩ := hc
      have hlead := leavesL_lead T
      have e1 : Green.leavesL (lead T) ++ [] ++ X ++ [] ++ Green.leavesL [] ++ (placeL n cs (afterTriv T)).rest =
          Green.leavesL (lead T) ++ (X ++ (placeL n cs (afterTriv T)).rest) := by simp [Green.leavesL]
      have hX : StartsReal (X ++ (placeL n cs (afterTriv T)).rest) := startsReal_append hb.start hb.ne
      obtain ⟨l1, l2⟩ := lead_append (A := Green.leavesL (lead T)) (S := X ++ (placeL n cs (afterTriv T)).rest) (.inl hX)
      have l3 : lead (Green.leavesL (lead T)) = lead T ∧ afterTriv (Green.leavesL (lead T)) = [] := by
        obtain ⟨p1, p2⟩ := lead_append (A := Green.leavesL (lead T)) (S := afterTriv T) (.inl (startsReal_afterTriv T))
        rw [hlead] at p1 p2
        exact ⟨p1.symm, by simpa using p2⟩
      rw [l3.1] at l1
      rw [l3.2] at l2
      obtain ⟨g1, g2⟩ := placeL_local n' m us X (placeL n cs (afterTriv T)).rest [] (by rw [hb.kinds]; simp)
        (.inr (.inr hb.solid))
      refine ⟨.node .block us, .here, ?_, ?_, ?_, ?_⟩
      · rw [e1]
        simp only [place, l1, l2]
        simp [g1]
      · rw [e1]
        simp only [place, l2]
        simp [g2, hb.rest]
      · rw [e1, realKinds_append, realKinds_append, realKinds_lead, hb.kinds, hrest]
        simp [PTree.yield]
      · have := placeL_leaves n cs (afterTriv T)
        simp only [Green.leavesL, List.append_nil]
        rw [this]
        exact startsReal_afterTriv T
    | @down k2 pre2 c2 c2' post2 a2 b2 hs2 =>
      simp only [Green.node.injEq] at hc
      obtain ⟨rfl, hc⟩ := hc
      obtain ⟨cs', i1, i2, i3, i4, i5⟩ := placeL_swap hb n n' cs (T := afterTriv T) (r := r)
        (by rw [realKinds_afterTriv, hT]; rfl) (by simpa [errors] using he) hc hs2
      have hlead := leavesL_lead T
      have e1 : Green.leavesL (lead T) ++ (Green.leavesL pre2 ++ a2) ++ X ++ (b2 ++ Green.leavesL post2) ++
          Green.leavesL [] ++ (placeL n cs (afterTriv T)).rest =
          Green.leavesL (lead T) ++ (Green.leavesL pre2 ++ a2 ++ X ++ b2 ++ Green.leavesL post2 ++ (placeL n cs (afterTriv T)).rest) := by
        simp [Green.leavesL]
      have hX : StartsReal (Green.leavesL pre2 ++ a2 ++ X ++ b2 ++ Green.leavesL post2 ++ (placeL n cs (afterTriv T)).rest) := by
        cases hpa : Green.leavesL pre2 ++ a2 with
        | nil =>
          have := startsReal_append (B := b2 ++ Green.leavesL post2 ++ (placeL n cs (afterTriv T)).rest) hb.start hb.ne
          simpa using this
        | cons z zs =>
          have h1 := placeL_leaves n cs (afterTriv T)
          have h2 : Green.leavesL (pre2 ++ c2 :: post2) = Green.leavesL pre2 ++ a2 ++ Green.leavesL gs ++ b2 ++ Green.leavesL post2 := by
            simp [leavesL_append, Green.leavesL, hs2.leaves.1, Green.leaves]
          rw [hc, h2, hpa] at h1
          have h3 := startsReal_afterTriv T z (by rw [← h1]; rfl)
          intro l hl
          simp at hl
          subst hl
          exact h3
      obtain ⟨l1, l2⟩ := lead_append (A := Green.leavesL (lead T)) (.inl hX)
      have l3 : lead (Green.leavesL (lead T)) = lead T ∧ afterTriv (Green.leavesL (lead T)) = [] := by
        obtain ⟨p1, p2⟩ := lead_append (A := Green.leavesL (lead T)) (S := afterTriv T) (.inl (startsReal_afterTriv T))
        rw [hlead] at p1 p2
        exact ⟨p1.symm, by simpa using p2⟩
      rw [l3.1] at l1
      rw [l3.2] at l2
      refine ⟨.node k cs', .down i1, ?_, ?_, ?_, ?_⟩
      · rw [e1]
        simp only [place, l1, l2, List.nil_append, i2]
      · rw [e1]
        simp only [place, l2, List.nil_append, i3]
      · rw [e1, realKinds_append, realKinds_lead, i4]
        simp [PTree.yield]
      · simpa [Green.leavesL] using i5
theorem placeL_swap {us : List PTree} {m : Nat} {X : List Lx} (hb : NewBlock us m X) {gs : List Green} (n n' : Nat)
    (ts : List PTree) {T : List Lx} {r : List SyntaxKind} {pre post : List Green} {c c' : Green} {a b : List Lx}
    (hT : realKinds T = yieldL ts ++ r) (he : errorsL ts = []) (hg : (placeL n ts T).greens = pre ++ c :: post)
    (hs : Swap (.node .block gs) (.node .block (placeL m us X).greens) a b c c') :
    ∃ ts', RepL us ts ts' ∧
      (placeL n' ts' (Green.leavesL pre ++ a ++ X ++ b ++ Green.leavesL post ++ (placeL n ts T).rest)).greens = pre ++ c' :: post ∧
      (placeL n' ts' (Green.leavesL pre ++ a ++ X ++ b ++ Green.leavesL post ++ (placeL n ts T).rest)).rest = (placeL n ts T).rest ∧
      realKinds (Green.leavesL pre ++ a ++ X ++ b ++ Green.leavesL post ++ (placeL n ts T).rest) = yieldL ts' ++ r ∧
      StartsReal (Green.leavesL gs ++ b ++ Green.leavesL post ++ (placeL n ts T).rest) := by
  cases ts with
  | nil => simp [placeL] at hg
  | cons t ts =>
    have hT' : realKinds T = yield t ++ (yieldL ts ++ r) := by rw [hT]; simp [yieldL]
    have hrest := realKinds_suffix n hT'
    simp only [errorsL, List.append_eq_nil_iff] at he
    simp only [placeL] at hg ⊢
    have hl1 := place_leaves n t T
    have hl2 := placeL_leaves n ts (place n t T).rest
    have hcases : (∃ q, pre = (place n t T).greens ++ q ∧ (placeL n ts (place n t T).rest).greens = q ++ c :: post) ∨
        (∃ q, (place n t T).greens = pre ++ c :: q ∧ post = q ++ (placeL n ts (place n t T).rest).greens) := by
      rcases List.append_eq_append_iff.1 hg with ⟨q, e1, e2⟩ | ⟨q, e1, e2⟩
      · exact .inl ⟨q, e1, e2⟩
      · cases q with
        | nil => exact .inl ⟨[], by simpa using e1.symm, by simpa using e2.symm⟩
        | cons z q =>
          simp only [List.cons_append, List.cons.injEq] at e2
          obtain ⟨rfl, rfl⟩ := e2
          exact .inr ⟨q, e1, rfl⟩
    rcases hcases with ⟨q, e1, e2⟩ | ⟨q, e1, e2⟩
    · -- in the tail
      subst e1
      obtain ⟨ts', i1, i2, i3, i4, i5⟩ := placeL_swap hb n n' ts hrest he.2 e2 hs
      have hA : realKinds (Green.leavesL (place n t T).greens) = yield t := by
        have h1 : realKinds (Green.leavesL (place n t T).greens) ++ realKinds (place n t T).rest = realKinds T := by
          rw [← realKinds_append, hl1]
        rw [hrest, hT'] at h1
        exact List.append_cancel_right h1
      have hA2 : realKinds (Green.leavesL (place n t T).greens ++ (Green.leavesL q ++ a)) =
          yield t ++ realKinds (Green.leavesL q ++ a) := by rw [realKinds_append, hA]
      -- the old tokens
      have hold : T = (Green.leavesL (place n t T).greens ++ (Green.leavesL q ++ a)) ++
          (Green.leavesL gs ++ b ++ Green.leavesL post ++ (placeL n ts (place n t T).rest).rest) := by
        have h2 : Green.leavesL (q ++ c :: post) = Green.leavesL q ++ a ++ Green.leavesL gs ++ b ++ Green.leavesL post := by
          simp [leavesL_append, Green.leavesL, hs.leaves.1, Green.leaves]
        rw [e2, h2] at hl2
        conv => lhs; rw [← hl1, ← hl2]
        simp
      obtain ⟨p1, p2⟩ := place_local n 0 t _ _ _ hA2 (.inl i5)
      rw [← hold] at p1 p2
      have hq : (place 0 t (Green.leavesL (place n t T).greens ++ (Green.leavesL q ++ a))).rest = Green.leavesL q ++ a := by
        have h2 : Green.leavesL (q ++ c :: post) = Green.leavesL q ++ a ++ Green.leavesL gs ++ b ++ Green.leavesL post := by
          simp [leavesL_append, Green.leavesL, hs.leaves.1, Green.leaves]
        rw [e2, h2] at hl2
        have : (place 0 t (Green.leavesL (place n t T).greens ++ (Green.leavesL q ++ a))).rest ++
            (Green.leavesL gs ++ b ++ Green.leavesL post ++ (placeL n ts (place n t T).rest).rest) =
            (Green.leavesL q ++ a) ++ (Green.leavesL gs ++ b ++ Green.leavesL post ++ (placeL n ts (place n t T).rest).rest) := by
          rw [← p2]
          conv => lhs; rw [← hl2]
          simp
        exact List.append_cancel_right this
      have hS' : StartsReal (X ++ (b ++ Green.leavesL post ++ (placeL n ts (place n t T).rest).rest)) :=
        startsReal_append hb.start hb.ne
      obtain ⟨p3, p4⟩ := place_local n' 0 t _ _ _ hA2 (.inl hS')
      rw [hq] at p4
      have e3 : Green.leavesL ((place n t T).greens ++ q) ++ a ++ X ++ b ++ Green.leavesL post ++
          (placeL n ts (place n t T).rest).rest =
          (Green.leavesL (place n t T).greens ++ (Green.leavesL q ++ a)) ++
            (X ++ (b ++ Green.leavesL post ++ (placeL n ts (place n t T).rest).rest)) := by
        simp [leavesL_append]
      have e4 : (Green.leavesL q ++ a) ++ (X ++ (b ++ Green.leavesL post ++ (placeL n ts (place n t T).rest).rest)) =
          Green.leavesL q ++ a ++ X ++ b ++ Green.leavesL post ++ (placeL n ts (place n t T).rest).rest := by simp
      refine ⟨t :: ts', .tail i1, ?_, ?_, ?_, i5⟩
      · rw [e3]
        simp only [placeL]
        rw [p4, e4, i2, p3, ← p1]
        simp
      · rw [e3]
        simp only [placeL]
        rw [p4, e4, i3]
      · rw [e3, List.append_assoc, realKinds_append, hA, e4, i4]
        simp [yieldL]
    · -- in the head
      subst e2
      obtain ⟨t', i1, i2, i3, i4, i5⟩ := place_swap hb n n' t hT' he.1 e1 hs
      have e3 : Green.leavesL pre ++ a ++ X ++ b ++ Green.leavesL (q ++ (placeL n ts (place n t T).rest).greens) ++
          (placeL n ts (place n t T).rest).rest =
          Green.leavesL pre ++ a ++ X ++ b ++ Green.leavesL q ++ (place n t T).rest := by
        conv => rhs; rw [← hl2]
        simp [leavesL_append]
      obtain ⟨q1, q2⟩ := placeL_n n' n ts (place n t T).rest r hrest
      refine ⟨t' :: ts, (repL_cons.2 (.inl ⟨t', i1, rfl⟩)), ?_, ?_, ?_, ?_⟩
      · rw [e3]
        simp only [placeL]
        rw [i3, i2, q1]
        simp
      · rw [e3]
        simp only [placeL]
        rw [i3, q2]
      · rw [e3, i4]
        simp [yieldL]
      · rw [leavesL_append]
        have : Green.leavesL gs ++ b ++ (Green.leavesL q ++ Green.leavesL (placeL n ts (place n t T).rest).greens) ++
            (placeL n ts (place n t T).rest).rest = Green.leavesL gs ++ b ++ Green.leavesL q ++ (place n t T).rest := by
          conv => rhs; rw [← hl2]
          simp
        rw [this]
        exact i5
end

end Verif
