import Verif.Proof.GrammarSpecStmt
import Verif.Spec.Viable

/-
What the parser has read before its first error can be completed: names, parameters and the calculus.
-/
set_option linter.unusedSimpArgs false
set_option linter.unusedVariables false
namespace Verif
open Item PTree Lua
open P Grammar

/-! ### two specifications of one function -/

theorem Spec.both {α : Type} {p : Prog α} {toks} {P R : α → List Item → List SyntaxKind → Prop}
    (h : Spec p toks P) (h' : Spec p toks R) : Spec p toks fun a i t => P a i t ∧ R a i t := by
  intro ev cur st
  have h1 := h ev cur st
  have h2 := h' ev cur st
  rw [wpF_iff] at h1 h2 ⊢
  obtain ⟨a, s, e, items, toks', ev', rfl, y, hp⟩ := h1
  obtain ⟨a2, s2, e2, items2, toks2, ev2, e3, y2, hp2⟩ := h2
  rw [e] at e2
  cases e2
  simp only [FState.mk.injEq] at e3
  obtain ⟨rfl, rfl, e4, -⟩ := e3
  have := List.append_cancel_right e4
  rw [List.reverse_inj] at this
  subst this
  exact ⟨_, _, e, _, _, _, rfl, y, hp, hp2⟩

theorem SpecL.both {p : Prog Nat} {i0 toks} {P R : Item → List SyntaxKind → Prop}
    (h : SpecL p i0 toks P) (h' : SpecL p i0 toks R) : SpecL p i0 toks fun i t => P i t ∧ R i t := by
  intro ev cur st
  have h1 := h ev cur st
  have h2 := h' ev cur st
  rw [wpF_iff] at h1 h2 ⊢
  obtain ⟨a, s, e, k, bf, af, toks', ev', rfl, y, hp⟩ := h1
  obtain ⟨a2, s2, e2, k2, bf2, af2, toks2, ev2, e3, y2, hp2⟩ := h2
  rw [e] at e2
  cases e2
  simp only [FState.mk.injEq, List.cons.injEq, Item.node.injEq] at e3
  obtain ⟨rfl, rfl, ⟨⟨-, rfl, rfl, rfl⟩, -⟩, -⟩ := e3
  exact ⟨_, _, e, _, _, _, _, _, rfl, y, hp, hp2⟩

/-! ### the tokens before the first error -/

/-- the tokens of the items before the first error -/
def pre (items : List Item) : List SyntaxKind := beforeErrorL (toTreeL items)

mutual
theorem beforeError_clean : (t : PTree) → errors t = [] → beforeError t = PTree.yield t
  | .tok k, _ => by simp [beforeError, PTree.yield]
  | .err e, h => by simp [PTree.errors] at h
  | .errNode cs e, h => by simp [PTree.errors] at h
  | .node k cs, h => by
    simp only [beforeError, PTree.yield]
    exact beforeErrorL_clean cs (by simpa [PTree.errors] using h)
theorem beforeErrorL_clean : (ts : List PTree) → errorsL ts = [] → beforeErrorL ts = yieldL ts
  | [], _ => by simp [beforeErrorL, yieldL]
  | t :: ts, h => by
    simp only [errorsL, List.append_eq_nil_iff] at h
    simp [beforeErrorL, yieldL, h.1, beforeError_clean t h.1, beforeErrorL_clean ts h.2]
end

theorem beforeErrorL_append : ∀ a b : List PTree,
    beforeErrorL (a ++ b) = beforeErrorL a ++ (if errorsL a = [] then beforeErrorL b else [])
  | [], b => by simp [beforeErrorL, errorsL]
  | t :: ts, b => by
    simp only [List.cons_append, beforeErrorL, errorsL, beforeErrorL_append ts b]
    by_cases h : PTree.errors t = []
    · simp [h]
    · simp [h]

mutual
theorem beforeError_prefix : (t : PTree) → beforeError t <+: PTree.yield t
  | .tok k => by simp [beforeError, PTree.yield]
  | .err e => by simp [beforeError]
  | .errNode cs e => by simp [beforeError]
  | .node k cs => by simpa [beforeError, PTree.yield] using beforeErrorL_prefix cs
theorem beforeErrorL_prefix : (ts : List PTree) → beforeErrorL ts <+: yieldL ts
  | [] => by simp [beforeErrorL]
  | t :: ts => by
    simp only [beforeErrorL, yieldL]
    by_cases h : PTree.errors t = []
    · rw [beforeError_clean t h, if_pos h]
      exact (List.prefix_append_right_inj _).2 (beforeErrorL_prefix ts)
    · rw [if_neg h, List.append_nil]
      exact (beforeError_prefix t).trans (List.prefix_append _ _)
end

@[simp] theorem pre_nil : pre [] = [] := by simp [pre, toTreeL, beforeErrorL]
@[simp] theorem pre_tok (k is) : pre (.tok k :: is) = k :: pre is := by
  simp [pre, toTreeL, toTree, beforeErrorL, beforeError, PTree.errors]
@[simp] theorem pre_err (e is) : pre (.err e :: is) = [] := by
  simp [pre, toTreeL, toTree, beforeErrorL, beforeError, PTree.errors]
@[simp] theorem pre_errNode (c e is) : pre (.errNode c e :: is) = [] := by
  simp [pre, toTreeL, toTree, beforeErrorL, beforeError, PTree.errors]
@[simp] theorem pre_node (p k bf af) : pre [.node p k bf af] = pre (bf ++ af) := by
  simp [pre, toTreeL, toTree, beforeErrorL, beforeError]
theorem pre_clean {a : List Item} (b) (h : clean a) : pre (a ++ b) = yld a ++ pre b := by
  simp only [pre, toTreeL_append, beforeErrorL_append]
  rw [if_pos (by exact h), beforeErrorL_clean _ h]
  rfl
theorem pre_dirty {a : List Item} (b) (h : ¬ clean a) : pre (a ++ b) = pre a := by
  simp only [pre, toTreeL_append, beforeErrorL_append]
  rw [if_neg (by exact h), List.append_nil]
theorem pre_of_clean {a : List Item} (h : clean a) : pre a = yld a := beforeErrorL_clean _ h
theorem pre_prefix (a : List Item) : pre a <+: yld a := beforeErrorL_prefix _

theorem pre_ne_append {a : List Item} (b) (h : pre a ≠ []) : pre (a ++ b) ≠ [] := by
  by_cases hc : clean a
  · rw [pre_clean b hc]
    rw [pre_of_clean hc] at h
    simp [h]
  · rwa [pre_dirty b hc]

/-! ### completions -/

/-- What was read before the first error can be completed to trees of the kind `S`; if it ends in `.` and `:`, before
a `(`, then only without the `:`.  `T` are the tokens from there on. -/
def Vi (S : List PTree → Prop) (T : List SyntaxKind) (items : List Item) : Prop :=
  ∃ ts u, S ts ∧ (yieldL ts = pre items ++ u ∨
    ∃ w r, pre items = w ++ [.dot, .colon] ∧ T = w ++ .dot :: .colon :: .lParen :: r ∧ yieldL ts = w ++ .dot :: u)

/-- `Vi`, if there is an error -/
def U (S : List PTree → Prop) (T : List SyntaxKind) (items : List Item) : Prop := ¬ clean items → Vi S T items

theorem Vi.mono {S S' : List PTree → Prop} {T items} (h : Vi S T items) (hs : ∀ ts, S ts → S' ts) : Vi S' T items := by
  obtain ⟨ts, u, h1, h2⟩ := h
  exact ⟨ts, u, hs _ h1, h2⟩

theorem U.mono {S S' : List PTree → Prop} {T items} (h : U S T items) (hs : ∀ ts, S ts → S' ts) : U S' T items :=
  fun hc => (h hc).mono hs

theorem U.ok {S : List PTree → Prop} {T items} (h : clean items) : U S T items := fun hc => absurd h hc

theorem Vi.bad {S : List PTree → Prop} {T items} (hp : pre items = []) (ts) (h : S ts) : Vi S T items :=
  ⟨ts, _, h, .inl (by rw [hp, List.nil_append])⟩

theorem U.bad {S : List PTree → Prop} {T items} (hp : pre items = []) (ts) (h : S ts) : U S T items :=
  fun _ => Vi.bad hp ts h

theorem U.node {S : List PTree → Prop} {T p k bf af} (h : U (fun ts => S [.node k ts]) T (bf ++ af)) :
    U S T [.node p k bf af] := by
  intro hc
  obtain ⟨ts, u, h1, h2⟩ := h (by simpa using hc)
  refine ⟨_, u, h1, ?_⟩
  simpa [yieldL, PTree.yield] using h2

theorem U.node0 {S : List PTree → Prop} {T p k af} (h : U (fun ts => S [.node k ts]) T af) :
    U S T [.node p k [] af] := U.node (by simpa using h)

theorem U.tok {S : List PTree → Prop} {T k is} (h : U (fun ts => S (.tok k :: ts)) T is) :
    U S (k :: T) (.tok k :: is) := by
  intro hc
  obtain ⟨ts, u, h1, h2⟩ := h (by simpa using hc)
  refine ⟨_, u, h1, ?_⟩
  rcases h2 with h2 | ⟨w, r, h2, h3, h4⟩
  · exact .inl (by simp [yieldL, PTree.yield, h2])
  · exact .inr ⟨k :: w, r, by simp [h2], by simp [h3], by simp [yieldL, PTree.yield, h4]⟩

theorem U.app {S : List PTree → Prop} {T T1 i1 i2} (y : T = yld i1 ++ T1)
    (h1 : U (fun ts => ∃ r, S (ts ++ r)) T i1) (h2 : clean i1 → U (fun ts => S (toTreeL i1 ++ ts)) T1 i2) :
    U S T (i1 ++ i2) := by
  intro hc
  by_cases c : clean i1
  · obtain ⟨ts, u, h3, h4⟩ := h2 c (fun c2 => hc ((clean_append _ _).2 ⟨c, c2⟩))
    refine ⟨_, u, h3, ?_⟩
    rw [pre_clean _ c, yieldL_append]
    rcases h4 with h4 | ⟨w, r, h4, h5, h6⟩
    · exact .inl (by rw [h4]; simp [yld])
    · exact .inr ⟨yld i1 ++ w, r, by simp [h4], by simp [y, h5], by rw [h6]; simp [yld]⟩
  · obtain ⟨ts, u, ⟨r, h3⟩, h4⟩ := h1 c
    refine ⟨_, u ++ yieldL r, h3, ?_⟩
    rw [pre_dirty _ c, yieldL_append]
    rcases h4 with h4 | ⟨w, r', h4, h5, h6⟩
    · exact .inl (by simp [h4])
    · exact .inr ⟨w, r', h4, h5, by simp [h6]⟩

/-- the first token of the completion is the first token read -/
theorem Vi.headed {S : List PTree → Prop} {T t items} (h : Vi S T items) (hp : pre items ≠ []) (y : T = yld items ++ t) :
    Vi (fun ts => S ts ∧ (yieldL ts).head? = some (la T)) T items := by
  obtain ⟨ts, u, h1, h2⟩ := h
  refine ⟨ts, u, ⟨h1, ?_⟩, h2⟩
  rcases h2 with h2 | ⟨w, r, h2, h3, h4⟩
  · obtain ⟨v, hv⟩ := pre_prefix items
    rw [h2]
    cases hq : pre items with
    | nil => exact absurd hq hp
    | cons a as =>
      rw [hq] at hv
      rw [y, ← hv]
      simp
  · rw [h4, h3]
    cases w <;> simp

/-! ### names and parameters -/

theorem errRecover_pre (msg rec toks) (hne : NE toks) :
    Spec (errRecover msg rec) toks fun _ items toks' => pre items = [] := by
  intro ev cur st
  simp only [errRecover, acceptAny, wpF_bind, wpF_current, wpF_ite, wpF_error, wpF_atTs]
  refine ⟨fun h => ?_, fun h => ⟨fun h2 => ?_, fun h2 => ?_⟩⟩
  · exact Spec.done [.err _] (by first | rfl | simp) (by simp) (by simp)
  · exact Spec.done [.err _] (by first | rfl | simp) (by simp) (by simp)
  · simp only [wpF_startError, wpF_bind, wpF_current, wpF_ite, wpF_bumpExpect, wpF_pure,
      wpF_completeError]
    refine ⟨fun h3 => ?_, fun h3 => ?_⟩
    · cases toks with
      | nil => simp at h3
      | cons k ts =>
        simp at hne
        simp [hne.1]
        exact Spec.done [.errNode [.tok k] _] (by first | rfl | simp) (by simp) (by simp)
    · exact Spec.done [.errNode [] _] (by first | rfl | simp) (by simp) (by simp)

theorem errAndBump_pre (msg toks) (hne : NE toks) :
    Spec (errAndBump msg) toks fun _ items toks' => pre items = [] := errRecover_pre msg _ toks hne

theorem errUntil_pre (fuel msg rec) (toks) (hne : NE toks) (hf : toks.length < fuel) :
    Spec (errUntil fuel msg rec) toks fun _ items toks' => pre items = [] := by
  intro ev cur st
  simp only [errUntil, wpF_bind, wpF_startError]
  refine (errUntilLoop_spec _ fuel toks hne hf).use ?_
  rintro _ items toks' ev' h1 - hl ⟨h2, h3, h4⟩
  simp only [wpF_completeError, TokenSet.contains_union, TokenSet.contains_new] at *
  exact Spec.done [.errNode items (.message msg)] (by simp) (by simp [h1]) (by simp)

theorem expect_v {k : SyntaxKind} (hk : k ≠ .eof) (toks) :
    Spec (expect k) toks fun _ items toks' => (clean items → toTreeL items = [.tok k]) ∧
      (lookahead toks 0 = k → items = [.tok k]) ∧ U (· = [.tok k]) toks items := by
  intro ev cur st
  simp only [expect, wpF_bind, wpF_current, wpF_ite]
  refine ⟨fun h => ?_, fun h => ?_⟩
  · obtain ⟨ts, rfl⟩ := lookahead_eq (by simpa using h) hk
    simp [hk]
    exact Spec.done [.tok k] (by simp) (by simp) ⟨by simp [toTreeL, toTree], by simp, U.ok (by simp)⟩
  · simp
    exact Spec.done [.err _] rfl (by simp) ⟨by simp, fun e => absurd (by simpa using e) h, U.bad (by simp) _ rfl⟩

theorem nameR_v (rec toks) (hne : NE toks) :
    Spec (nameR rec) toks fun _ items toks' => (clean items → toTreeL items = [nameT]) ∧
      (lookahead toks 0 = .ident → clean items) ∧ (lookahead toks 0 ≠ .ident → pre items = []) ∧
      U (· = [nameT]) toks items := by
  intro ev cur st
  simp only [nameR, wpF_bind, wpF_atK, wpF_ite, nameUnchecked, wpF_start]
  refine ⟨fun h => ?_, fun h => ?_⟩
  · obtain ⟨ts, rfl⟩ := lookahead_eq (by simpa using h) (by simp)
    simp
    exact Spec.done [.node ev .name [] [.tok .ident]] (by simp) (by simp)
      ⟨by simp [toTreeL, toTree], by simp, U.ok (by simp)⟩
  · refine ((errRecover_spec _ rec toks hne).both (errRecover_pre _ rec toks hne)).use ?_
    rintro _ items toks' ev' h1 - - ⟨⟨h2, h3, _⟩, hp⟩
    exact Spec.done items rfl h1 ⟨fun hc => absurd hc h3, fun e => absurd (by simpa using e) h, fun _ => hp, U.bad hp _ rfl⟩

theorem nameRefR_v (rec toks) (hne : NE toks) :
    Spec (nameRefR rec) toks fun _ items toks' => (clean items → toTreeL items = [nameRefT]) ∧
      U (· = [nameRefT]) toks items := by
  intro ev cur st
  simp only [nameRefR, wpF_bind, wpF_atK, wpF_ite, nameRefUnchecked, wpF_start]
  refine ⟨fun h => ?_, fun h => ?_⟩
  · obtain ⟨ts, rfl⟩ := lookahead_eq (by simpa using h) (by simp)
    simp
    exact Spec.done [.node ev .nameRef [] [.tok .ident]] (by simp) (by simp)
      ⟨by simp [toTreeL, toTree], U.ok (by simp)⟩
  · refine ((errRecover_spec _ rec toks hne).both (errRecover_pre _ rec toks hne)).use ?_
    rintro _ items toks' ev' h1 - - ⟨⟨h2, h3, _⟩, hp⟩
    exact Spec.done items rfl h1 ⟨fun hc => absurd hc h3, U.bad hp _ rfl⟩

theorem nameRef_v (toks) : Spec nameRef toks fun a items toks' => (clean items → toTreeL items = [nameRefT]) ∧
      (lookahead toks 0 = .ident → clean items) ∧ U (· = [nameRefT]) toks items := by
  intro ev cur st
  simp only [nameRef, wpF_bind, wpF_start]
  refine (expect_v (by simp) toks).use ?_
  rintro _ items toks' ev' h1 - - ⟨h2, h3, h4⟩
  simp
  refine Spec.done [.node ev .nameRef [] items] (by simp) (by simp [h1]) ⟨?_, ?_, ?_⟩
  · intro hc
    simp [toTreeL, toTree, h2 (by simpa using hc)]
  · intro e; simp [h3 e]
  · exact .node0 (h4.mono fun ts e => by rw [e])

theorem multiNameRLoop_v (rec va) : ∀ n toks, NE toks → toks.length < n →
    Spec (multiNameRLoop rec va n) toks fun _ items toks' => U (D .nameTail) toks items := by
  intro n
  induction n with
  | zero => intro toks _ h; omega
  | succ n ih =>
    intro toks hne hlen ev cur st
    simp only [multiNameRLoop, wpF_bind, wpF_atK, wpF_ite, wpF_pure]
    refine ⟨fun h => ?_, fun h => ?_⟩
    · obtain ⟨ts, rfl⟩ := lookahead_eq (by simpa using h) (by simp)
      simp at hne hlen
      simp
      refine ⟨fun hv ht => ?_, fun hv => ?_⟩
      · exact Spec.done [.tok .comma] rfl (by simp) (U.ok (by simp))
      · refine (nameR_v rec ts hne).use ?_
        rintro _ items toks' ev' h1 hne' hl ⟨h2, -, -, h3⟩
        refine (ih toks' (hne' hne) (by omega)).use ?_
        rintro _ items2 toks2 ev2 h1' - hl2 h4
        refine Spec.done (.tok .comma :: (items ++ items2)) (by simp) (by simp [h1, h1']) ?_
        refine .tok (.app h1 (h3.mono ?_) fun hc => (h4.mono ?_))
        · rintro _ rfl
          exact ⟨[], Deriv.nameTailCons _ .nameTailNil⟩
        · intro ts d
          rw [h2 hc]
          exact Deriv.nameTailCons _ d
    · exact Spec.done [] rfl (by simp) (U.ok (by simp))

theorem multiNameR_v (fuel rec va toks) (hne : NE toks) (hf : toks.length < fuel) :
    Spec (multiNameR fuel rec va) toks fun _ items toks' =>
      U (fun ts => ∃ tl, ts = [.node .multiName (nameT :: tl)] ∧ D .nameTail tl) toks items := by
  intro ev cur st
  simp only [multiNameR, wpF_bind, wpF_start, wpF_atK, wpF_ite]
  simp
  refine ⟨fun hv ht => ?_, fun hv => ?_⟩
  · exact Spec.done [.node ev .multiName [] []] rfl (by simp) (U.ok (by simp))
  · refine (nameR_v _ toks hne).use ?_
    rintro _ items toks' ev' h1 hne' hl ⟨h2, -, -, h3⟩
    refine (multiNameRLoop_v _ va fuel toks' (hne' hne) (by omega)).use ?_
    rintro _ items2 toks2 ev2 h1' - hl2 h4
    simp
    refine Spec.done [.node ev .multiName [] (items ++ items2)] (by simp) (by simp [h1, h1']) ?_
    refine .node0 (.app h1 (h3.mono ?_) fun hc => h4.mono ?_)
    · rintro _ rfl
      exact ⟨[], [], rfl, .nameTailNil⟩
    · intro ts d
      rw [h2 hc]
      exact ⟨ts, rfl, d⟩

theorem paramList_v (fuel toks) (hne : NE toks) (hf : toks.length < fuel) :
    Spec (paramList fuel) toks fun a items toks' => U (fun ts => ∃ p, ts = [p] ∧ D .params [p]) toks items := by
  intro ev cur st
  simp only [paramList, wpF_bind, wpF_start]
  refine (expect_v (by simp) toks).use ?_
  rintro _ i1 t1 e1 y1 ne1 l1 ⟨c1, -, v1⟩
  simp only [wpF_bind, wpF_atTs, wpF_ite, wpF_atK]
  have fin : ∀ mid tm em, t1 = yld mid ++ tm →
      U (fun ts => ∃ r, D .params [.node .paramList (.tok .lParen :: (ts ++ r))]) t1 mid →
      (clean mid → D .params [.node .paramList (.tok .lParen :: (toTreeL mid ++ [.tok .rParen]))]) →
      wpF (expect .rParen) ⟨tm, em, mid.reverse ++ (i1.reverse ++ []), ⟨ev, false, [], cur⟩ :: st⟩
      fun a s' => wpF (complete ev .paramList) s' fun a s' =>
      Post toks cur st (fun items toks' => U (fun ts => ∃ p, ts = [p] ∧ D .params [p]) toks items) s' := by
    intro mid tm em y v c
    refine (expect_v (by simp) tm).use ?_
    rintro _ i2 t2 e2 y2 ne2 l2 ⟨c2, -, v2⟩
    simp
    refine Spec.done [.node ev .paramList [] (i1 ++ (mid ++ i2))] (by simp) (by simp [y1, y, y2]) ?_
    refine .node0 (.app y1 (v1.mono ?_) fun hc1 => .app y (v.mono ?_) fun hc2 => v2.mono ?_)
    · rintro _ rfl
      exact ⟨[.tok .rParen], _, rfl, .paramsEmpty⟩
    · rintro ts ⟨r, d⟩
      exact ⟨r, _, rfl, by rw [c1 hc1]; exact d⟩
    · rintro _ rfl
      refine ⟨_, rfl, ?_⟩
      rw [c1 hc1]
      exact c hc2
  refine ⟨fun h => ?_, fun h => ⟨fun h2 => ?_, fun h2 => ?_⟩⟩
  · refine ((multiNameR_spec fuel _ true t1 (ne1 hne) (by omega)).both
      (multiNameR_v fuel _ true t1 (ne1 hne) (by omega))).use ?_
    rintro _ i2 t2 e2 y2 ne2 l2 ⟨⟨⟨g2, c2⟩, -⟩, v2⟩
    have hv2 : U (fun ts => ∃ r, D .params [.node .paramList (.tok .lParen :: (ts ++ r))]) t1 i2 := by
      refine v2.mono ?_
      rintro _ ⟨tl, rfl, d⟩
      exact ⟨[.tok .rParen], Deriv.paramsNames _ d⟩
    refine ⟨fun h3 => ?_, fun h3 => ?_⟩
    · obtain ⟨t3, rfl⟩ := lookahead_eq (by simpa using h3) (by simp)
      simp only [wpF_bump, ne_eq, reduceCtorEq, not_false_eq_true, true_and]
      have hne3 : NE t3 := by have := ne2 (ne1 hne); simp at this; exact this
      have hdots : clean i2 → D .params [.node .paramList (.tok .lParen :: (toTreeL i2 ++ [.tok .tripleDot, .tok .rParen]))] := by
        intro hc
        rcases c2 hc with ⟨_, _, h5⟩ | ⟨tl, h5, h6 | ⟨_, _, ts', h6, rfl⟩⟩
        · simp [h5, toTreeL, toTree]; exact Deriv.paramsVararg
        · simp [h5, toTreeL, toTree]; exact Deriv.paramsNoComma _ rfl h6.1
        · simp [h5, toTreeL, toTree]; exact Deriv.paramsNamesVararg _ h6
      refine ⟨fun h4 => ?_, fun h4 => ?_⟩
      · refine ((errAndBump_spec _ t3 hne3).both (errAndBump_pre _ t3 hne3)).use ?_
        rintro _ i4 t4 e4 y4 ne4 l4 ⟨⟨g4, c4, -⟩, hp4⟩
        have := fin (i2 ++ .tok .tripleDot :: i4) t4 e4 (by simp [y2, y4])
          (.app y2 (hv2.mono fun ts ⟨r, d⟩ => ⟨r, [], by simpa using d⟩)
            fun hc => .tok (.bad hp4 [] ⟨[.tok .rParen], by simpa using hdots hc⟩))
          (by simp [c4])
        simpa using this
      · have := fin (i2 ++ [.tok .tripleDot]) t3 (e2 + 1) (by simp [y2])
          (.app y2 (hv2.mono fun ts ⟨r, d⟩ => ⟨r, [], by simpa using d⟩) fun hc => .ok (by simp)) (by
          simp
          intro hc
          simpa [toTreeL, toTree] using hdots hc)
        simpa using this
    · have := fin i2 t2 e2 (by simp [y2]) hv2 (by
        intro hc
        simp at h3
        rcases c2 hc with ⟨_, h5, _⟩ | ⟨tl, h5, h6 | ⟨_, h6, _⟩⟩
        · exact absurd h5 h3
        · simp [h5, toTreeL, toTree]; exact Deriv.paramsNames _ h6.1
        · exact absurd h6 h3)
      simpa using this
  · simp [PARAM_END, TokenSet.contains_new] at h h2
    rw [h2] at h; simp at h
  · have := fin [] t1 e1 (by simp) (.ok (by simp)) (by
      intro _; simpa [toTreeL, toTree] using Deriv.paramsEmpty)
    simpa using this

end Verif
