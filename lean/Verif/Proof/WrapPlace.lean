import Verif.Proof.NodeWrap
import Verif.Proof.NodePlace

/-
Placing a tree in which an expression was put in parentheses.
-/
namespace Verif
namespace Wrp
open PTree Lua
open Spec (expressionKinds openPlaces callEnds)

/-- the expression with its parentheses -/
abbrev parenG (lp rp : Lx) (K : SyntaxKind) (gs : List Green) : Green := .node .parenExpr [leaf lp, .node K gs, leaf rp]

/-- `g'` is `g` with the expression between the leaves `a` and `b` put in parentheses; `g` is in a node of kind `k`, which is
in a node of kind `j`. -/
inductive GW (lp rp : Lx) (K : SyntaxKind) (gs : List Green) :
    SyntaxKind → SyntaxKind → List Nat → List Lx → List Lx → Green → Green → Prop
  | here {j k} : k ∈ openPlaces → (j = .exprStmt → K ≠ .callExpr ∧ K ≠ .methodCallExpr) →
      GW lp rp K gs j k [] [] [] (.node K gs) (parenG lp rp K gs)
  | down {j k l pre c c' post q a b} : GW lp rp K gs k l q a b c c' →
      GW lp rp K gs j k (pre.length :: q) (Green.leavesL pre ++ a) (b ++ Green.leavesL post)
        (.node l (pre ++ c :: post)) (.node l (pre ++ c' :: post))

variable {lp rp : Lx} {K : SyntaxKind} {gs : List Green}

theorem GW.leaves {j k q a b g g'} (h : GW lp rp K gs j k q a b g g') :
    g.leaves = a ++ Green.leavesL gs ++ b ∧ g'.leaves = a ++ (lp :: Green.leavesL gs ++ [rp]) ++ b := by
  induction h with
  | here => simp [Green.leaves, Green.leavesL, leaf]
  | down _ ih => simp [Green.leaves, Green.leavesL, leavesL_append, ih.1, ih.2]

theorem GW.replace {j k q a b g g'} (h : GW lp rp K gs j k q a b g g') : g' = Green.replaceAt (parenG lp rp K gs) q g := by
  induction h with
  | here => rfl
  | down _ ih => simp only [Green.replaceAt, modify_mid, ← ih]

theorem GW.ctx {j k q a b g g'} (h : GW lp rp K gs j k q a b g g') : Ctx (.node K gs) g q a b := by
  induction h with
  | here => exact .here
  | down _ ih => exact .down ih

theorem GW.node {j k q a b g g'} (h : GW lp rp K gs j k q a b g g') : g.isNode = true ∧ g'.isNode = true := by
  cases h <;> exact ⟨rfl, rfl⟩

theorem GW.of {x g p a b} (h : Ctx x g p a b) {q a' b' x'} (hx : ∀ j k, GW lp rp K gs j k q a' b' x x') :
    ∃ g', ∀ j k, GW lp rp K gs j k (p ++ q) (a ++ a') (b' ++ b) g g' := by
  induction h with
  | here => exact ⟨x', by simpa using hx⟩
  | @down k pre c post p a b _ ih =>
    obtain ⟨g', ih⟩ := ih
    exact ⟨.node k (pre ++ g' :: post), fun j l => by simpa using GW.down (j := j) (pre := pre) (post := post) (ih l k)⟩

theorem wrap_cons {p t t' b a} (ts : List PTree) (h : WrapL K p [t] [t'] b a) :
    WrapL K p (t :: ts) (t' :: ts) b (a ++ yieldL ts) := by
  generalize e1 : [t] = l at h
  generalize e2 : [t'] = l' at h
  cases h with
  | here h1 h2 h3 =>
    simp only [List.cons.injEq] at e1 e2
    obtain ⟨rfl, rfl⟩ := e1
    obtain ⟨rfl, -⟩ := e2
    simpa [yieldL] using WrapL.here (ts := ts) h1 h2 h3
  | down h =>
    simp only [List.cons.injEq] at e1 e2
    obtain ⟨rfl, rfl⟩ := e1
    obtain ⟨rfl, -⟩ := e2
    simpa [yieldL] using WrapL.down (p := p) (ts := ts) h
  | tail h =>
    simp only [List.cons.injEq] at e1
    obtain ⟨-, rfl⟩ := e1
    cases h

theorem AllExp.sub {k cs} (h : AllExp (.node k cs)) : ∀ c ∈ cs, AllExp c :=
  fun c hc _ _ hK hs => h _ _ hK (.node _ _ _ _ hc hs)

theorem StartsReal.left {A B : List Lx} (h : StartsReal (A ++ B)) (hne : A ≠ []) : StartsReal A := by
  cases A with
  | nil => exact absurd rfl hne
  | cons a A => exact fun l hl => h l (by simpa using hl)

mutual
theorem place_wrap (hlp : lp.1 = .lParen) (hrp : rp.1 = .rParen) (hK : K ∈ expressionKinds) (n n' : Nat)
    (t : PTree) {T : List Lx} {r : List SyntaxKind} {pre post : List Green} {j kp : SyntaxKind} {q : List Nat} {c c' : Green} {a b : List Lx}
    (hT : realKinds T = yield t ++ r) (he : errors t = []) (hx : AllExp t) (hg : (place n t T).greens = pre ++ c :: post)
    (hs : GW lp rp K gs j kp q a b c c') :
    ∃ t', WrapL K (decide (kp ∈ openPlaces)) [t] [t'] (realKinds (Green.leavesL pre ++ a)) (realKinds (b ++ Green.leavesL post)) ∧
      (place n' t' (Green.leavesL pre ++ a ++ (lp :: Green.leavesL gs ++ [rp]) ++ b ++ Green.leavesL post ++ (place n t T).rest)).greens = pre ++ c' :: post ∧
      (place n' t' (Green.leavesL pre ++ a ++ (lp :: Green.leavesL gs ++ [rp]) ++ b ++ Green.leavesL post ++ (place n t T).rest)).rest = (place n t T).rest ∧
      realKinds (Green.leavesL pre ++ a ++ (lp :: Green.leavesL gs ++ [rp]) ++ b ++ Green.leavesL post ++ (place n t T).rest) = yield t' ++ r ∧
      StartsReal (Green.leavesL gs ++ b ++ Green.leavesL post ++ (place n t T).rest) := by
  have hlpT : isTriv lp = false := by simp [isTriv, hlp]; rfl
  have hrpT : isTriv rp = false := by simp [isTriv, hrp]; rfl
  have hnil : realKinds [] = [] := rfl
  have htokens : ∀ {l : List Lx} {q : List Green}, l.map leaf = q → c ∈ q → False := by
    intro l q e hc
    rw [← e, List.mem_map] at hc
    obtain ⟨x, _, rfl⟩ := hc
    have := hs.node.1
    simp [leaf, Green.isNode] at this
  cases t with
  | tok k =>
    exfalso
    simp only [place] at hg
    cases hA : afterTriv T with
    | nil =>
      rw [hA] at hg
      simp only [lead] at hg
      exact htokens hg (by simp)
    | cons l r' =>
      rw [hA] at hg
      simp only [lead] at hg
      exact htokens (l := T.takeWhile isTriv ++ [l]) (by simpa using hg) (by simp)
  | err e => simp [errors] at he
  | errNode cs e => simp [errors] at he
  | node k cs =>
    have hrest := realKinds_suffix n hT
    simp only [place] at hg hrest ⊢
    have hsplit : pre = lead T ∧ c = .node k (placeL n cs (afterTriv T)).greens ∧ post = [] := by
      rcases List.append_eq_append_iff.1 hg with ⟨q, e1, e2⟩ | ⟨q, e1, e2⟩
      · cases q with
        | nil =>
          simp only [List.append_nil, List.nil_append, List.cons.injEq] at e1 e2
          exact ⟨e1, e2.1.symm, e2.2.symm⟩
        | cons z q => simp at e2
      · cases q with
        | nil =>
          simp only [List.append_nil, List.nil_append, List.cons.injEq] at e1 e2
          exact ⟨e1.symm, e2.1, e2.2⟩
        | cons z q =>
          exfalso
          simp only [List.cons_append, List.cons.injEq] at e2
          refine htokens (l := T.takeWhile isTriv) (q := lead T) rfl ?_
          rw [e1, e2.1]; simp
    obtain ⟨rfl, rfl, rfl⟩ := hsplit
    generalize hc : Green.node k (placeL n cs (afterTriv T)).greens = c at hs
    have hlead := leavesL_lead T
    have l3 : lead (Green.leavesL (lead T)) = lead T ∧ afterTriv (Green.leavesL (lead T)) = [] := by
      obtain ⟨p1, p2⟩ := lead_append (A := Green.leavesL (lead T)) (S := afterTriv T) (.inl (startsReal_afterTriv T))
      rw [hlead] at p1 p2
      exact ⟨p1.symm, by simpa using p2⟩
    cases hs with
    | here hopen hcall =>
      simp only [Green.node.injEq] at hc
      obtain ⟨rfl, rfl⟩ := hc
      generalize hR : (placeL n cs (afterTriv T)).rest = R at hrest ⊢
      obtain ⟨hsolid, k0, y0, hy, hk0⟩ := hx _ cs hK (.refl _)
      have hleaves := placeL_leaves n cs (afterTriv T)
      generalize hG : (placeL n cs (afterTriv T)).greens = G at hleaves ⊢
      rw [hR] at hleaves
      have hT2 : realKinds (afterTriv T) = yieldL cs ++ r := by rw [realKinds_afterTriv, hT]; rfl
      have hkinds : realKinds (Green.leavesL G) = yieldL cs := by
        have : realKinds (Green.leavesL G) ++ realKinds R = yieldL cs ++ r := by rw [← realKinds_append, hleaves, hT2]
        rw [hrest] at this
        exact List.append_cancel_right this
      have hGne : Green.leavesL G ≠ [] := by
        intro e; rw [e, hy] at hkinds; simp [realKinds] at hkinds
      have hGR : StartsReal (Green.leavesL G ++ R) := by rw [hleaves]; exact startsReal_afterTriv T
      have hGs : StartsReal (Green.leavesL G) := StartsReal.left hGR hGne
      obtain ⟨g1, g2⟩ := placeL_local n n' cs (Green.leavesL G) R [] (by rw [hkinds]; simp) (.inr (.inr hsolid))
      rw [hleaves, hG] at g1
      rw [hleaves, hR] at g2
      have g2' : (placeL n' cs (Green.leavesL G)).rest = [] := by
        simpa using g2
      obtain ⟨g3, g4⟩ := placeL_local n' n' cs (Green.leavesL G) (rp :: R) [] (by rw [hkinds]; simp) (.inr (.inr hsolid))
      rw [← g1] at g3
      rw [g2'] at g4
      have e1 : Green.leavesL (lead T) ++ [] ++ (lp :: Green.leavesL G ++ [rp]) ++ [] ++ Green.leavesL [] ++ R =
          Green.leavesL (lead T) ++ (lp :: (Green.leavesL G ++ rp :: R)) := by simp [Green.leavesL]
      obtain ⟨l1, l2⟩ := lead_append (A := Green.leavesL (lead T)) (S := lp :: (Green.leavesL G ++ rp :: R))
        (.inl (by intro l hl; simp at hl; subst hl; exact hlpT))
      rw [l3.1] at l1
      rw [l3.2] at l2
      have m1 : ∀ S : List Lx, lead (lp :: S) = [] ∧ afterTriv (lp :: S) = lp :: S := by
        intro S; simp [lead, afterTriv, hlpT]
      have m2 : ∀ S : List Lx, lead (rp :: S) = [] ∧ afterTriv (rp :: S) = rp :: S := by
        intro S; simp [lead, afterTriv, hrpT]
      have m3 : lead (Green.leavesL G ++ rp :: R) = [] ∧ afterTriv (Green.leavesL G ++ rp :: R) = Green.leavesL G ++ rp :: R := by
        obtain ⟨z, zs, hz⟩ := List.exists_cons_of_ne_nil hGne
        have : isTriv z = false := hGs z (by rw [hz]; rfl)
        rw [hz]
        simp [lead, afterTriv, this]
      have hplace : (placeL n' [.tok .lParen, .node k cs, .tok .rParen] (lp :: (Green.leavesL G ++ rp :: R))).greens =
          [leaf lp, .node k G, leaf rp] ∧
          (placeL n' [.tok .lParen, .node k cs, .tok .rParen] (lp :: (Green.leavesL G ++ rp :: R))).rest = R := by
        simp [placeL, place, (m1 _).1, (m1 _).2, m3.1, m3.2, g3, g4, (m2 _).1, (m2 _).2]
      refine ⟨parenT (.node k cs), ?_, ?_, ?_, ?_, ?_⟩
      · have := WrapL.here (ts := []) hK hy hk0
        simpa [hopen, Green.leavesL, realKinds_lead, yieldL, hnil] using this
      · rw [e1]
        simp only [place, l1, l2, List.nil_append, hplace.1]
      · rw [e1]
        simp only [place, l2, List.nil_append, hplace.2]
      · rw [e1, realKinds_append, realKinds_lead]
        have : lp :: (Green.leavesL G ++ rp :: R) = [lp] ++ (Green.leavesL G ++ ([rp] ++ R)) := rfl
        rw [this, realKinds_append, realKinds_append, realKinds_append, hkinds, hrest]
        simp [realKinds, hlpT, hrpT, hlp, hrp, PTree.yield, yieldL]
      · simpa [Green.leavesL] using hGR
    | @down _ _ k2 pre2 c2 c2' post2 q2 a2 b2 hs2 =>
      simp only [Green.node.injEq] at hc
      obtain ⟨rfl, hc⟩ := hc
      obtain ⟨cs', i1, i2, i3, i4, i5⟩ := placeL_wrap hlp hrp hK n n' cs (T := afterTriv T) (r := r)
        (by rw [realKinds_afterTriv, hT]; rfl) (by simpa [errors] using he) hx.sub hc hs2
      have e1 : Green.leavesL (lead T) ++ (Green.leavesL pre2 ++ a2) ++ (lp :: Green.leavesL gs ++ [rp]) ++ (b2 ++ Green.leavesL post2) ++
          Green.leavesL [] ++ (placeL n cs (afterTriv T)).rest =
          Green.leavesL (lead T) ++ (Green.leavesL pre2 ++ a2 ++ (lp :: Green.leavesL gs ++ [rp]) ++ b2 ++ Green.leavesL post2 ++ (placeL n cs (afterTriv T)).rest) := by
        simp [Green.leavesL]
      have hX : StartsReal (Green.leavesL pre2 ++ a2 ++ (lp :: Green.leavesL gs ++ [rp]) ++ b2 ++ Green.leavesL post2 ++ (placeL n cs (afterTriv T)).rest) := by
        cases hpa : Green.leavesL pre2 ++ a2 with
        | nil =>
          intro l hl
          simp at hl
          subst hl
          exact hlpT
        | cons z zs =>
          have h1 := placeL_leaves n cs (afterTriv T)
          have h2 : Green.leavesL (pre2 ++ c2 :: post2) = Green.leavesL pre2 ++ a2 ++ Green.leavesL gs ++ b2 ++ Green.leavesL post2 := by
            simp [leavesL_append, Green.leavesL, hs2.leaves.1]
          rw [hc, h2, hpa] at h1
          have h3 := startsReal_afterTriv T z (by rw [← h1]; rfl)
          intro l hl
          simp at hl
          subst hl
          exact h3
      obtain ⟨l1, l2⟩ := lead_append (A := Green.leavesL (lead T)) (.inl hX)
      rw [l3.1] at l1
      rw [l3.2] at l2
      refine ⟨.node k cs', ?_, ?_, ?_, ?_, ?_⟩
      · have := WrapL.down (p := decide (kp ∈ openPlaces)) (ts := []) i1
        simpa [realKinds_append, realKinds_lead, yieldL, Green.leavesL, hnil] using this
      · rw [e1]
        simp only [place, l1, l2, List.nil_append, i2]
      · rw [e1]
        simp only [place, l2, List.nil_append, i3]
      · rw [e1, realKinds_append, realKinds_lead, i4]
        simp [PTree.yield]
      · simpa [Green.leavesL] using i5
theorem placeL_wrap (hlp : lp.1 = .lParen) (hrp : rp.1 = .rParen) (hK : K ∈ expressionKinds) (n n' : Nat)
    (ts : List PTree) {T : List Lx} {r : List SyntaxKind} {pre post : List Green} {j kp : SyntaxKind} {q : List Nat} {c c' : Green} {a b : List Lx}
    (hT : realKinds T = yieldL ts ++ r) (he : errorsL ts = []) (hx : ∀ t ∈ ts, AllExp t) (hg : (placeL n ts T).greens = pre ++ c :: post)
    (hs : GW lp rp K gs j kp q a b c c') :
    ∃ ts', WrapL K (decide (kp ∈ openPlaces)) ts ts' (realKinds (Green.leavesL pre ++ a)) (realKinds (b ++ Green.leavesL post)) ∧
      (placeL n' ts' (Green.leavesL pre ++ a ++ (lp :: Green.leavesL gs ++ [rp]) ++ b ++ Green.leavesL post ++ (placeL n ts T).rest)).greens = pre ++ c' :: post ∧
      (placeL n' ts' (Green.leavesL pre ++ a ++ (lp :: Green.leavesL gs ++ [rp]) ++ b ++ Green.leavesL post ++ (placeL n ts T).rest)).rest = (placeL n ts T).rest ∧
      realKinds (Green.leavesL pre ++ a ++ (lp :: Green.leavesL gs ++ [rp]) ++ b ++ Green.leavesL post ++ (placeL n ts T).rest) = yieldL ts' ++ r ∧
      StartsReal (Green.leavesL gs ++ b ++ Green.leavesL post ++ (placeL n ts T).rest) := by
  have hlpT : isTriv lp = false := by simp [isTriv, hlp]; rfl
  cases ts with
  | nil => simp [placeL] at hg
  | cons t ts =>
    have hT' : realKinds T = yield t ++ (yieldL ts ++ r) := by rw [hT]; simp [yieldL]
    have hrest := realKinds_suffix n hT'
    simp only [errorsL, List.append_eq_nil_iff] at he
    simp only [placeL] at hg ⊢
    have hl1 := place_leaves n t T
    have hl2 := placeL_leaves n ts (place n t T).rest
    have hcases : (∃ q, pre = (place n t T).greens ++ q ∧ (placeL n ts (place n t T).rest).greens = q ++ c :: post) ∨
        (∃ q, (place n t T).greens = pre ++ c :: q ∧ post = q ++ (placeL n ts (place n t T).rest).greens) := by
      rcases List.append_eq_append_iff.1 hg with ⟨q, e1, e2⟩ | ⟨q, e1, e2⟩
      · exact .inl ⟨q, e1, e2⟩
      · cases q with
        | nil => exact .inl ⟨[], by simpa using e1.symm, by simpa using e2.symm⟩
        | cons z q =>
          simp only [List.cons_append, List.cons.injEq] at e2
          obtain ⟨rfl, rfl⟩ := e2
          exact .inr ⟨q, e1, rfl⟩
    rcases hcases with ⟨q, e1, e2⟩ | ⟨q, e1, e2⟩
    · -- in the tail
      subst e1
      obtain ⟨ts', i1, i2, i3, i4, i5⟩ := placeL_wrap hlp hrp hK n n' ts hrest he.2 (fun t h => hx t (List.mem_cons_of_mem _ h)) e2 hs
      have hA : realKinds (Green.leavesL (place n t T).greens) = yield t := by
        have h1 : realKinds (Green.leavesL (place n t T).greens) ++ realKinds (place n t T).rest = realKinds T := by
          rw [← realKinds_append, hl1]
        rw [hrest, hT'] at h1
        exact List.append_cancel_right h1
      have hA2 : realKinds (Green.leavesL (place n t T).greens ++ (Green.leavesL q ++ a)) =
          yield t ++ realKinds (Green.leavesL q ++ a) := by rw [realKinds_append, hA]
      -- the old tokens
      have h2 : Green.leavesL (q ++ c :: post) = Green.leavesL q ++ a ++ Green.leavesL gs ++ b ++ Green.leavesL post := by
        simp [leavesL_append, Green.leavesL, hs.leaves.1]
      have hold : T = (Green.leavesL (place n t T).greens ++ (Green.leavesL q ++ a)) ++
          (Green.leavesL gs ++ b ++ Green.leavesL post ++ (placeL n ts (place n t T).rest).rest) := by
        rw [e2, h2] at hl2
        conv => lhs; rw [← hl1, ← hl2]
        simp
      obtain ⟨p1, p2⟩ := place_local n 0 t _ _ _ hA2 (.inl i5)
      rw [← hold] at p1 p2
      have hq : (place 0 t (Green.leavesL (place n t T).greens ++ (Green.leavesL q ++ a))).rest = Green.leavesL q ++ a := by
        rw [e2, h2] at hl2
        have : (place 0 t (Green.leavesL (place n t T).greens ++ (Green.leavesL q ++ a))).rest ++
            (Green.leavesL gs ++ b ++ Green.leavesL post ++ (placeL n ts (place n t T).rest).rest) =
            (Green.leavesL q ++ a) ++ (Green.leavesL gs ++ b ++ Green.leavesL post ++ (placeL n ts (place n t T).rest).rest) := by
          rw [← p2]
          conv => lhs; rw [← hl2]
          simp
        exact List.append_cancel_right this
      have hS' : StartsReal ((lp :: Green.leavesL gs ++ [rp]) ++ (b ++ Green.leavesL post ++ (placeL n ts (place n t T).rest).rest)) := by
        intro l hl; simp at hl; subst hl; exact hlpT
      obtain ⟨p3, p4⟩ := place_local n' 0 t _ _ _ hA2 (.inl hS')
      rw [hq] at p4
      have e3 : Green.leavesL ((place n t T).greens ++ q) ++ a ++ (lp :: Green.leavesL gs ++ [rp]) ++ b ++ Green.leavesL post ++
          (placeL n ts (place n t T).rest).rest =
          (Green.leavesL (place n t T).greens ++ (Green.leavesL q ++ a)) ++
            ((lp :: Green.leavesL gs ++ [rp]) ++ (b ++ Green.leavesL post ++ (placeL n ts (place n t T).rest).rest)) := by
        simp [leavesL_append]
      have e4 : (Green.leavesL q ++ a) ++ ((lp :: Green.leavesL gs ++ [rp]) ++ (b ++ Green.leavesL post ++ (placeL n ts (place n t T).rest).rest)) =
          Green.leavesL q ++ a ++ (lp :: Green.leavesL gs ++ [rp]) ++ b ++ Green.leavesL post ++ (placeL n ts (place n t T).rest).rest := by simp
      refine ⟨t :: ts', ?_, ?_, ?_, ?_, i5⟩
      · have := WrapL.tail (t := t) i1
        rw [← hA] at this
        simpa [realKinds_append, leavesL_append] using this
      · rw [e3]
        simp only [placeL]
        rw [p4, e4, i2, p3, ← p1]
        simp
      · rw [e3]
        simp only [placeL]
        rw [p4, e4, i3]
      · rw [e3, List.append_assoc, realKinds_append, hA, e4, i4]
        simp [yieldL]
    · -- in the head
      subst e2
      obtain ⟨t', i1, i2, i3, i4, i5⟩ := place_wrap hlp hrp hK n n' t hT' he.1 (hx t (List.mem_cons_self ..)) e1 hs
      have e3 : Green.leavesL pre ++ a ++ (lp :: Green.leavesL gs ++ [rp]) ++ b ++ Green.leavesL (q ++ (placeL n ts (place n t T).rest).greens) ++
          (placeL n ts (place n t T).rest).rest =
          Green.leavesL pre ++ a ++ (lp :: Green.leavesL gs ++ [rp]) ++ b ++ Green.leavesL q ++ (place n t T).rest := by
        conv => rhs; rw [← hl2]
        simp [leavesL_append]
      obtain ⟨q1, q2⟩ := placeL_n n' n ts (place n t T).rest r hrest
      have hB : realKinds (Green.leavesL (placeL n ts (place n t T).rest).greens) = yieldL ts := by
        have h1 : realKinds (Green.leavesL (placeL n ts (place n t T).rest).greens) ++ realKinds (placeL n ts (place n t T).rest).rest =
            realKinds (place n t T).rest := by rw [← realKinds_append, hl2]
        rw [Pst.realKindsL_suffix n ts hrest, hrest] at h1
        exact List.append_cancel_right h1
      refine ⟨t' :: ts, ?_, ?_, ?_, ?_, ?_⟩
      · have := wrap_cons ts i1
        rw [← hB] at this
        simpa [realKinds_append, leavesL_append] using this
      · rw [e3]
        simp only [placeL]
        rw [i3, i2, q1]
        simp
      · rw [e3]
        simp only [placeL]
        rw [i3, q2]
      · rw [e3, i4]
        simp [yieldL]
      · rw [leavesL_append]
        have : Green.leavesL gs ++ b ++ (Green.leavesL q ++ Green.leavesL (placeL n ts (place n t T).rest).greens) ++
            (placeL n ts (place n t T).rest).rest = Green.leavesL gs ++ b ++ Green.leavesL q ++ (place n t T).rest := by
          conv => rhs; rw [← hl2]
          simp
        rw [this]
        exact i5
end

/-! ### the last token of an expression -/

mutual
theorem place_end (n : Nat) (t : PTree) {A : List Lx} {r : List SyntaxKind} (hA : realKinds A = yield t ++ r) (h : solid t = true) :
    ∃ A1 z, A = A1 ++ z :: (place n t A).rest ∧ isTriv z = false := by
  have hl := leavesL_lead A
  cases t with
  | tok k =>
    cases hT : afterTriv A with
    | nil => rw [← realKinds_afterTriv, hT] at hA; simp [realKinds, PTree.yield] at hA
    | cons z R =>
      refine ⟨Green.leavesL (lead A), z, ?_, startsReal_afterTriv A z (by rw [hT]; rfl)⟩
      simp only [place, hT]
      rw [← hT, hl]
  | err e => simp [solid] at h
  | errNode cs e => simp [solid] at h
  | node k cs =>
    obtain ⟨A1, z, e, hz⟩ := placeL_end n cs (A := afterTriv A) (r := r) (by rw [realKinds_afterTriv, hA]; rfl) (by simpa [solid] using h)
    refine ⟨Green.leavesL (lead A) ++ A1, z, ?_, hz⟩
    simp only [place]
    rw [List.append_assoc, ← e, hl]
theorem placeL_end (n : Nat) (ts : List PTree) {A : List Lx} {r : List SyntaxKind} (hA : realKinds A = yieldL ts ++ r) (h : solidL ts = true) :
    ∃ A1 z, A = A1 ++ z :: (placeL n ts A).rest ∧ isTriv z = false := by
  cases ts with
  | nil => simp [solidL] at h
  | cons t ts =>
    have hA' : realKinds A = yield t ++ (yieldL ts ++ r) := by rw [hA]; simp [yieldL]
    cases ts with
    | nil =>
      obtain ⟨A1, z, e, hz⟩ := place_end n t hA' (by simpa [solidL] using h)
      exact ⟨A1, z, by simpa [placeL] using e, hz⟩
    | cons t2 ts =>
      obtain ⟨A1, z, e, hz⟩ := placeL_end n (t2 :: ts) (realKinds_suffix n hA') (by simpa [solidL] using h)
      have hl := place_leaves n t A
      refine ⟨Green.leavesL (place n t A).greens ++ A1, z, ?_, hz⟩
      conv => lhs; rw [← hl, e]
      simp [placeL]
end

end Wrp
end Verif
