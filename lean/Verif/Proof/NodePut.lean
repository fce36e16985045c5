import Verif.Spec.Inlining
import Verif.Proof.NodeWrap

/-
Putting another expression in the place of one of a derivation.
-/
set_option linter.unusedSimpArgs false

namespace Verif
namespace Put
open PTree Lua
open Spec (expressionKinds valuePlaces)

def isNodeT : PTree → Bool
  | .node _ _ => true
  | _ => false

/-- One expression of the trees, of one of the kinds `A`, becomes `E`; the tokens before it and behind it. The first flag tells
whether this may be one of the trees themselves, the second one whether it may be an element of a list of expressions among the
trees. The nodes `V` are those in which it may be a child otherwise. -/
inductive PutL (A V : List SyntaxKind) (E : PTree) : Bool → Bool → List PTree → List PTree → List SyntaxKind → List SyntaxKind → Prop
  | here {s K cs ts} : K ∈ A → PutL A V E true s (.node K cs :: ts) (E :: ts) [] (yieldL ts)
  | down {p s k cs cs' ts b a} :
      PutL A V E (decide (k ∈ V) || (decide (k = .multivalExpr) && s)) (decide (k ≠ .exprStmt ∧ k ≠ .assignStmt)) cs cs' b a →
      PutL A V E p s (.node k cs :: ts) (.node k cs' :: ts) b (a ++ yieldL ts)
  | tail {p s t ts ts' b a} : PutL A V E p (s || isNodeT t) ts ts' b a → PutL A V E p s (t :: ts) (t :: ts') (yield t ++ b) a

variable {E : PTree}

theorem put_yields {A V p s ts ts' b a} (h : PutL A V E p s ts ts' b a) : ∃ y, yieldL ts = b ++ y ++ a ∧ yieldL ts' = b ++ yield E ++ a := by
  induction h with
  | @here s K cs ts h1 => exact ⟨yieldL cs, by simp [yieldL, PTree.yield], by simp [yieldL, PTree.yield]⟩
  | down _ ih =>
    obtain ⟨y, e1, e2⟩ := ih
    exact ⟨y, by simp [yieldL, PTree.yield, e1], by simp [yieldL, PTree.yield, e2]⟩
  | tail _ ih =>
    obtain ⟨y, e1, e2⟩ := ih
    exact ⟨y, by simp [yieldL, e1], by simp [yieldL, e2]⟩

def Pu (E : PTree) (p s : Bool) (ts ts' : List PTree) : Prop := ∃ b a, PutL expressionKinds valuePlaces E p s ts ts' b a ∧ a.head? ≠ some .lParen

theorem ok_left {a y : List SyntaxKind} (h : (a ++ y).head? ≠ some .lParen) : a.head? ≠ some .lParen := by
  cases a with
  | nil => simp
  | cons => simpa using h

theorem Pu.nil {p s l} (h : Pu E p s [] l) : False := by
  obtain ⟨_, _, h, -⟩ := h; cases h

theorem Pu.tok {p s k ts l} (h : Pu E p s (.tok k :: ts) l) : ∃ ts', Pu E p s ts ts' ∧ l = .tok k :: ts' := by
  obtain ⟨_, _, h, o⟩ := h
  cases h with
  | tail h => exact ⟨_, ⟨_, _, by simpa [isNodeT] using h, o⟩, rfl⟩

/-- the children of a node -/
def PuIn (E : PTree) (s : Bool) (k : SyntaxKind) (cs cs' : List PTree) : Prop :=
  Pu E (decide (k ∈ valuePlaces) || (decide (k = .multivalExpr) && s)) (decide (k ≠ .exprStmt ∧ k ≠ .assignStmt)) cs cs'

theorem Pu.node {p s k cs l} (h : Pu E p s [.node k cs] l) :
    (p = true ∧ k ∈ expressionKinds ∧ l = [E]) ∨ ∃ cs', PuIn E s k cs cs' ∧ l = [.node k cs'] := by
  obtain ⟨_, _, h, o⟩ := h
  cases h with
  | here h => exact .inl ⟨rfl, h, rfl⟩
  | down h => exact .inr ⟨_, ⟨_, _, h, ok_left o⟩, rfl⟩
  | tail h => cases h

theorem Pu.other {p s k cs l} (h : Pu E p s [.node k cs] l) (hk : k ∉ expressionKinds) :
    ∃ cs', PuIn E s k cs cs' ∧ l = [.node k cs'] := by
  rcases h.node with ⟨-, h, -⟩ | h
  · exact absurd h hk
  · exact h

theorem Pu.cons {p s t ts l} (h : Pu E p s (t :: ts) l) :
    (∃ t', Pu E p s [t] [t'] ∧ l = t' :: ts) ∨ ∃ ts', Pu E p (s || isNodeT t) ts ts' ∧ l = t :: ts' := by
  obtain ⟨_, _, h, o⟩ := h
  cases h with
  | here h1 => exact .inl ⟨_, ⟨_, _, .here (ts := []) h1, by simp [yieldL]⟩, rfl⟩
  | down h => exact .inl ⟨_, ⟨_, _, .down (ts := []) h, by simpa [yieldL] using ok_left o⟩, rfl⟩
  | tail h => exact .inr ⟨_, ⟨_, _, h, o⟩, rfl⟩

theorem put_app {A V p s xs ys l b a} (h : PutL A V E p s (xs ++ ys) l b a) :
    (∃ xs' a', PutL A V E p s xs xs' b a' ∧ l = xs' ++ ys ∧ a = a' ++ yieldL ys) ∨
    ∃ s' ys' b', PutL A V E p s' ys ys' b' a ∧ l = xs ++ ys' ∧ b = yieldL xs ++ b' := by
  have yap : ∀ {a b : List PTree}, yieldL (a ++ b) = yieldL a ++ yieldL b := by
    intro a b; induction a <;> simp_all [yieldL]
  induction xs generalizing s l b with
  | nil => exact .inr ⟨s, l, b, h, rfl, by simp [yieldL]⟩
  | cons t xs ih =>
    simp only [List.cons_append] at h
    cases h with
    | here h1 => exact .inl ⟨_, _, .here (ts := xs) h1, rfl, by rw [yap]⟩
    | down h => exact .inl ⟨_, _, .down (ts := xs) h, rfl, by rw [yap]; simp⟩
    | tail h =>
      rcases ih h with ⟨xs', a', h2, rfl, rfl⟩ | ⟨s', ys', b', h2, rfl, rfl⟩
      · exact .inl ⟨_, _, .tail h2, rfl, rfl⟩
      · exact .inr ⟨_, _, _, h2, rfl, by simp [yieldL]⟩

theorem Pu.app {p s xs ys l} (h : Pu E p s (xs ++ ys) l) :
    (∃ xs', Pu E p s xs xs' ∧ l = xs' ++ ys) ∨ ∃ ys', (∃ s', Pu E p s' ys ys') ∧ l = xs ++ ys' := by
  obtain ⟨_, _, h, o⟩ := h
  rcases put_app h with ⟨_, _, h1, rfl, rfl⟩ | ⟨_, _, _, h1, rfl, rfl⟩
  · exact .inl ⟨_, ⟨_, _, h1, ok_left o⟩, rfl⟩
  · exact .inr ⟨_, ⟨_, _, _, h1, o⟩, rfl⟩

theorem Pu.single {p s t l} (h : Pu E p s [t] l) : ∃ t', l = [t'] := by
  rcases h.cons with ⟨t', -, rfl⟩ | ⟨_, h, -⟩
  · exact ⟨_, rfl⟩
  · exact h.nil.elim

theorem Pu.name {p s ts l} (h : Pu E p s (nameT :: ts) l) : ∃ ts', Pu E p true ts ts' ∧ l = nameT :: ts' := by
  rcases h.cons with ⟨t', h1, rfl⟩ | h
  · obtain ⟨_, h2, -⟩ := h1.other (by decide)
    obtain ⟨_, h3, -⟩ := Pu.tok h2
    exact h3.nil.elim
  · simpa [isNodeT] using h

theorem Pu.nameRef {s ts l} (h : Pu E false s (nameRefT :: ts) l) : ∃ ts', Pu E false true ts ts' ∧ l = nameRefT :: ts' := by
  rcases h.cons with ⟨t', h1, rfl⟩ | h
  · rcases h1.node with ⟨h, -⟩ | ⟨_, h2, -⟩
    · cases h
    · obtain ⟨_, h3, -⟩ := Pu.tok h2
      exact h3.nil.elim
  · simpa [isNodeT] using h

theorem Pu.noNames {p s x ts l} (hd : Deriv x .nameTail ts) (h : Pu E p s ts l) : False := by
  generalize hn : NT.nameTail = nt at hd
  induction hd generalizing s l <;> cases hn
  · exact h.nil
  · rename_i ih
    obtain ⟨_, h1, -⟩ := h.tok
    obtain ⟨_, h2, -⟩ := h1.name
    exact ih h2 rfl

theorem Pu.noPath {s x ts l} (hd : Deriv x .pathTail ts) (h : Pu E false s ts l) : False := by
  generalize hn : NT.pathTail = nt at hd
  induction hd generalizing s l <;> cases hn
  · exact h.nil
  · rename_i ih
    obtain ⟨_, h1, -⟩ := h.tok
    obtain ⟨_, h2, -⟩ := h1.nameRef
    exact ih h2 rfl

theorem kind_same {s t t'} (h : Pu E false s [t] [t']) : kindOf t' = kindOf t := by
  obtain ⟨_, _, h, -⟩ := h
  cases h with
  | down => rfl
  | tail h => cases h

theorem callable_pu {s t t'} (h : Pu E false s [t] [t']) (hc : callable t) : callable t' := by
  simpa [callable, indexable, kind_same h] using hc

theorem indexable_pu {s t t'} (h : Pu E false s [t] [t']) (hc : indexable t) : indexable t' := by
  simpa [indexable, kind_same h] using hc

theorem leftOps_pu {s t t'} (h : Pu E false s [t] [t']) : ∀ q ∈ leftOps t', q ∈ leftOps t := by
  have key : ∀ n, ∀ t, sizeOf t < n → ∀ {s t'}, Pu E false s [t] [t'] → ∀ q ∈ leftOps t', q ∈ leftOps t := by
    intro n
    induction n with
    | zero => intro t h; omega
    | succ n ih =>
      intro t hn s t' h0 q hq
      cases t with
      | tok => obtain ⟨_, h, -⟩ := h0.tok; exact h.nil.elim
      | err => obtain ⟨_, _, h, -⟩ := h0; cases h with | tail h => cases h
      | errNode => obtain ⟨_, _, h, -⟩ := h0; cases h with | tail h => cases h
      | node k cs =>
        rcases h0.node with ⟨e, -⟩ | ⟨cs', h1, e⟩
        · cases e
        · simp only [List.cons.injEq, and_true] at e; subst e
          unfold leftOps at hq
          split at hq
          · rename_i l op rest e
            simp only [PTree.node.injEq] at e
            obtain ⟨rfl, rfl⟩ := e
            replace h1 : Pu E false true cs _ := h1
            cases cs with
            | nil => exact h1.nil.elim
            | cons c cs =>
              rcases h1.cons with ⟨c', h2, e⟩ | ⟨_, h2, e⟩
              · simp only [List.cons.injEq] at e
                obtain ⟨rfl, rfl⟩ := e
                simp only [leftOps, List.mem_cons] at hq ⊢
                rcases hq with rfl | hq
                · exact .inl rfl
                · exact .inr (ih c (by simp at hn; omega) h2 q hq)
              · simp only [List.cons.injEq] at e
                obtain ⟨rfl, rfl⟩ := e
                cases cs with
                | nil => exact h2.nil.elim
                | cons c2 cs =>
                  cases c2 with
                  | tok =>
                    obtain ⟨_, h, e⟩ := h2.tok
                    simp only [List.cons.injEq, PTree.tok.injEq] at e
                    obtain ⟨rfl, rfl⟩ := e
                    simpa [leftOps] using hq
                  | err | errNode =>
                    obtain ⟨_, _, h, -⟩ := h2
                    cases h
                  | node k2 cs2 =>
                    exfalso
                    obtain ⟨_, _, h, -⟩ := h2
                    cases h
          · simp at hq
  exact key _ t (Nat.lt_succ_self _) h

theorem rightLevels_pu {s t t'} (h : Pu E false s [t] [t']) : ∀ q ∈ rightLevels t', q ∈ rightLevels t := by
  have key : ∀ n, ∀ t, sizeOf t < n → ∀ {s t'}, Pu E false s [t] [t'] → ∀ q ∈ rightLevels t', q ∈ rightLevels t := by
    intro n
    induction n with
    | zero => intro t h; omega
    | succ n ih =>
      intro t hn s t' h0 q hq
      cases t with
      | tok => obtain ⟨_, h, -⟩ := h0.tok; exact h.nil.elim
      | err => obtain ⟨_, _, h, -⟩ := h0; cases h with | tail h => cases h
      | errNode => obtain ⟨_, _, h, -⟩ := h0; cases h with | tail h => cases h
      | node k cs =>
        rcases h0.node with ⟨e, -⟩ | ⟨cs', h1, e⟩
        · cases e
        · simp only [List.cons.injEq, and_true] at e; subst e
          have notok : ∀ {s c} {k}, Pu E false s [c] [.tok k] → False := by
            intro s c k h
            obtain ⟨_, _, h, -⟩ := h
            cases h with | tail g => exact nomatch g
          unfold rightLevels at hq
          split at hq
          · rename_i l op r e
            simp only [PTree.node.injEq] at e
            obtain ⟨rfl, rfl⟩ := e
            replace h1 : Pu E false true cs _ := h1
            cases cs with
            | nil => exact h1.nil.elim
            | cons c cs =>
              rcases h1.cons with ⟨c', h2, e⟩ | ⟨_, h2, e⟩
              · simp only [List.cons.injEq] at e
                obtain ⟨rfl, rfl⟩ := e
                simpa [rightLevels] using hq
              · simp only [List.cons.injEq] at e
                obtain ⟨rfl, rfl⟩ := e
                cases cs with
                | nil => exact h2.nil.elim
                | cons c2 cs =>
                  rcases h2.cons with ⟨c2', h3, e⟩ | ⟨_, h3, e⟩
                  · simp only [List.cons.injEq] at e
                    obtain ⟨rfl, rfl⟩ := e
                    exact (notok h3).elim
                  · simp only [List.cons.injEq] at e
                    obtain ⟨rfl, rfl⟩ := e
                    cases cs with
                    | nil => exact h3.nil.elim
                    | cons c3 cs =>
                      rcases h3.cons with ⟨c3', h4, e⟩ | ⟨_, h4, e⟩
                      · simp only [List.cons.injEq] at e
                        obtain ⟨rfl, rfl⟩ := e
                        simp only [rightLevels, List.mem_cons] at hq ⊢
                        rcases hq with rfl | hq
                        · exact .inl rfl
                        · exact .inr (ih c3 (by simp at hn; omega) h4 q hq)
                      · simp only [List.cons.injEq] at e
                        obtain ⟨rfl, rfl⟩ := e
                        cases cs with
                        | nil => exact h4.nil.elim
                        | cons c4 cs =>
                          rcases h4.cons with ⟨c4', h5, e⟩ | ⟨_, h5, e⟩ <;> simp at e
          · rename_i op e2 e
            simp only [PTree.node.injEq] at e
            obtain ⟨rfl, rfl⟩ := e
            replace h1 : Pu E false true cs _ := h1
            cases cs with
            | nil => exact h1.nil.elim
            | cons c cs =>
              rcases h1.cons with ⟨c', h2, e⟩ | ⟨_, h2, e⟩
              · simp only [List.cons.injEq] at e
                obtain ⟨rfl, rfl⟩ := e
                exact (notok h2).elim
              · simp only [List.cons.injEq] at e
                obtain ⟨rfl, rfl⟩ := e
                cases cs with
                | nil => exact h2.nil.elim
                | cons c2 cs =>
                  rcases h2.cons with ⟨c2', h3, e⟩ | ⟨_, h3, e⟩
                  · simp only [List.cons.injEq] at e
                    obtain ⟨rfl, rfl⟩ := e
                    simp only [rightLevels, List.mem_cons] at hq ⊢
                    rcases hq with rfl | hq
                    · exact .inl rfl
                    · exact .inr (ih c2 (by simp at hn; omega) h3 q hq)
                  · simp only [List.cons.injEq] at e
                    obtain ⟨rfl, rfl⟩ := e
                    cases cs with
                    | nil => exact h3.nil.elim
                    | cons c3 cs =>
                      rcases h3.cons with ⟨c3', h4, e⟩ | ⟨_, h4, e⟩ <;> simp at e
          · simp at hq
  exact key _ t (Nat.lt_succ_self _) h

theorem endsCallable_pu {p s ts ts' b a} (h : PutL expressionKinds valuePlaces E p s ts ts' b a) :
    endsCallableL ts' = endsCallableL ts ∨ a = [] := by
  induction h with
  | @here s K cs ts hK =>
    cases ts with
    | cons t ts => exact .inl (by simp [endsCallableL])
    | nil => exact .inr (by simp [yieldL])
  | @down p s k cs cs' ts b a h ih =>
    cases ts with
    | cons t ts => exact .inl (by simp [endsCallableL])
    | nil =>
      rcases ih with ih | rfl
      · exact .inl (by simp only [endsCallableL, endsCallable, ih])
      · exact .inr (by simp [yieldL])
  | @tail p s t ts ts' b a h ih =>
    rcases ih with ih | ih
    · left
      cases ts with
      | nil => cases h
      | cons t2 ts2 =>
        cases ts' with
        | nil => cases h
        | cons t3 ts3 => simpa [endsCallableL] using ih
    · exact .inr ih

theorem notReturn {x} (h : Deriv x .expr [.node .returnStmt [.tok .returnKw]]) : False := by
  generalize ht : [PTree.node .returnStmt [.tok .returnKw]] = ts at h
  cases h <;> simp [nameRefT] at ht

theorem nonempty {x nt ts} (h : Deriv x nt ts) : nt = .expr ∨ nt = .multival ∨ nt = .stmt → yieldL ts ≠ [] := by
  induction h with
  | call f a _ _ _ ihf _ | method f a _ _ _ ihf _ | indexE f i _ _ _ ihf _ =>
    intro _
    have := ihf (.inl rfl)
    simp_all [yieldL, PTree.yield]
  | multival e ts _ _ ih _ =>
    intro _
    have := ih (.inl rfl)
    simp_all [yieldL, PTree.yield]
  | exprStmt m _ _ ih =>
    intro _
    have := ih (.inr (.inl rfl))
    simp_all [yieldL, PTree.yield]
  | _ => first | (intro h; simp at h; done) | (intro _; simp [yieldL, PTree.yield])

theorem first_tok {p s k ts l a} (h : PutL expressionKinds valuePlaces E p s (.tok k :: ts) l [] a) : False := by
  generalize hb : ([] : List SyntaxKind) = b at h
  cases h with
  | tail h => simp [PTree.yield] at hb

theorem first_cons {p s t ts l a} (h : PutL expressionKinds valuePlaces E p s (t :: ts) l [] a) (hy : yield t ≠ []) : ∃ t' a', PutL expressionKinds valuePlaces E p s [t] [t'] [] a' := by
  generalize hb : ([] : List SyntaxKind) = b at h
  cases h with
  | here h => exact ⟨_, _, .here (ts := []) h⟩
  | down h => subst hb; exact ⟨_, _, .down (ts := []) h⟩
  | tail h => simp at hb; exact absurd hb.1 hy

theorem first_node {p s k cs l a} (h : PutL expressionKinds valuePlaces E p s [.node k cs] l [] a) : (p = true ∧ k ∈ expressionKinds) ∨
    ∃ cs' a', PutL expressionKinds valuePlaces E (decide (k ∈ valuePlaces) || (decide (k = .multivalExpr) && s)) (decide (k ≠ .exprStmt ∧ k ≠ .assignStmt)) cs cs' [] a' := by
  generalize hb : ([] : List SyntaxKind) = b at h
  cases h with
  | here h => exact .inl ⟨rfl, h⟩
  | down h => subst hb; exact .inr ⟨_, _, h⟩
  | tail h => cases h

/-- what comes first is not replaced -/
theorem notFirst {x nt ts} (h : Deriv x nt ts) : nt = .expr ∨ nt = .multival ∨ nt = .stmt ∨ nt = .stmts →
    ∀ {p s ts' b a}, PutL expressionKinds valuePlaces E p s ts ts' b a → (nt = .expr → p = false) → (nt = .multival → s = false) → b ≠ [] := by
  have one : ∀ {x nt t}, Deriv x nt [t] → nt = .expr ∨ nt = .multival ∨ nt = .stmt → yield t ≠ [] := by
    intro x nt t h hn
    simpa [yieldL] using nonempty h hn
  -- expressions
  have ex : ∀ {p s k cs l a}, p = false → PutL expressionKinds valuePlaces E p s [.node k cs] l [] a →
      ∃ cs' a', PutL expressionKinds valuePlaces E (decide (k ∈ valuePlaces) || (decide (k = .multivalExpr) && s)) (decide (k ≠ .exprStmt ∧ k ≠ .assignStmt)) cs cs' [] a' := by
    intro p s k cs l a hp h
    rcases first_node h with h | h
    · rw [hp] at h; cases h.1
    · exact h
  have st : ∀ {p s k cs l a}, k ∉ expressionKinds → PutL expressionKinds valuePlaces E p s [.node k cs] l [] a →
      ∃ cs' a', PutL expressionKinds valuePlaces E (decide (k ∈ valuePlaces) || (decide (k = .multivalExpr) && s)) (decide (k ≠ .exprStmt ∧ k ≠ .assignStmt)) cs cs' [] a' := by
    intro p s k cs l a hp h
    rcases first_node h with h | h
    · exact absurd h.2 hp
    · exact h
  induction h with
  | nameRef | literal | function | table | paren | «prefix» =>
    intro _ p s ts' b a h hp _ hb
    subst hb
    obtain ⟨_, _, h⟩ := ex (hp rfl) h
    exact first_tok h
  | call f a hf _ _ ihf _ | method f a hf _ _ ihf _ | indexE f i hf _ _ ihf _ | dot f hf _ ihf | «infix» op l r hop hf _ _ _ ihf _ =>
    intro _ p s ts' b a h hp _ hb
    subst hb
    obtain ⟨_, _, h⟩ := ex (hp rfl) h
    obtain ⟨_, _, h⟩ := first_cons h (one hf (.inl rfl))
    exact ihf (.inl rfl) h (fun _ => rfl) nofun rfl
  | multival e ts he _ ihe _ =>
    intro _ p s ts' b a h _ hs hb
    subst hb
    obtain ⟨_, _, h⟩ := st (by decide) h
    obtain ⟨_, _, h⟩ := first_cons h (one he (.inl rfl))
    exact ihe (.inl rfl) h (fun _ => by rw [hs rfl]; decide) nofun rfl
  | ifStmt | goto | «break» | doStmt | «while» | «repeat» | localFunction | localNames | localAssign | returnNone | «return» | function_ | forStmt =>
    intro _ p s ts' b a h hp _ hb
    subst hb
    obtain ⟨_, _, h⟩ := st (by decide) h
    exact first_tok h
  | label =>
    intro _ p s ts' b a h hp _ hb
    subst hb
    obtain ⟨_, _, h⟩ := st (by decide) h
    obtain ⟨_, _, h⟩ := first_cons h (by simp [PTree.yield, yieldL])
    obtain ⟨_, _, h⟩ := st (by decide) h
    exact first_tok h
  | exprStmt m hm _ ih =>
    intro _ p s ts' b a h hp _ hb
    subst hb
    obtain ⟨_, _, h⟩ := st (by decide) h
    exact ih (.inr (.inl rfl)) h nofun (fun _ => by decide) rfl
  | assign m m' hm _ _ ih _ =>
    intro _ p s ts' b a h hp _ hb
    subst hb
    obtain ⟨_, _, h⟩ := st (by decide) h
    obtain ⟨_, _, h⟩ := first_cons h (one hm (.inr (.inl rfl)))
    exact ih (.inr (.inl rfl)) h nofun (fun _ => by decide) rfl
  | stmtsNil => intro _ p s ts' b a h; cases h
  | stmtsCons t ts ht _ _ ih _ | stmtsSemi t ts ht _ ih _ =>
    intro _ p s ts' b a h _ _ hb
    subst hb
    obtain ⟨_, _, h⟩ := first_cons h (one ht (.inr (.inr rfl)))
    exact ih (.inr (.inr (.inl rfl))) h nofun nofun rfl
  | _ => intro h; simp at h

theorem starts_pu {x m m'} (hm : Deriv x .multival [m]) (h : Pu E false false [m] [m']) (hs : startsStmt m) : startsStmt m' := by
  obtain ⟨b, a, h, -⟩ := h
  have hb := notFirst hm (.inr (.inl rfl)) h nofun (fun _ => rfl)
  obtain ⟨y, e1, e2⟩ := put_yields h
  simp only [yieldL, List.append_nil] at e1 e2
  cases b with
  | nil => exact absurd rfl hb
  | cons z zs => simpa [startsStmt, e1, e2] using hs

/-- **The derivation** with another expression in the place of one. -/
theorem deriv_put {x nt ts} (hE : Deriv x .expr [E]) (h : Deriv x nt ts) : ∀ {p s ts'}, (nt = .pathTail → p = false) → Pu E p s ts ts' → Deriv x nt ts' := by
  have ex : ∀ {p s k cs l}, Pu E p s [.node k cs] l →
      (∀ {cs'}, PuIn E s k cs cs' → Deriv x .expr [.node k cs']) → Deriv x .expr l := by
    intro p s k cs l h2 h3
    rcases h2.node with ⟨-, -, rfl⟩ | ⟨cs', g, rfl⟩
    · exact hE
    · exact h3 g
  induction h with
  | nameRef =>
    intro p _ ts' _ hr
    exact ex hr fun g => by obtain ⟨_, g, -⟩ := g.tok; exact g.nil.elim
  | literal k hk =>
    intro p _ ts' _ hr
    exact ex hr fun g => by obtain ⟨_, g, -⟩ := g.tok; exact g.nil.elim
  | function p b hp hb ihp ihb =>
    intro _ _ ts' _ hr
    refine ex hr fun g => ?_
    obtain ⟨_, g1, rfl⟩ := g.tok
    rcases g1.cons with ⟨_, g2, rfl⟩ | ⟨_, g2, rfl⟩
    · exact .function _ _ (ihp nofun g2) hb
    rcases g2.cons with ⟨_, g3, rfl⟩ | ⟨_, g3, rfl⟩
    · exact .function _ _ hp (ihb nofun g3)
    obtain ⟨_, g, -⟩ := g3.tok; exact g.nil.elim
  | table ts h ih =>
    intro _ _ ts' _ hr
    refine ex hr fun g => ?_
    obtain ⟨_, g1, rfl⟩ := g.tok
    rcases g1.app with ⟨_, g2, rfl⟩ | ⟨_, ⟨_, g2⟩, rfl⟩
    · exact .table _ (ih nofun g2)
    obtain ⟨_, g, -⟩ := g2.tok; exact g.nil.elim
  | paren e h ih =>
    intro _ _ ts' _ hr
    refine ex hr fun g => ?_
    obtain ⟨_, g1, rfl⟩ := g.tok
    rcases g1.cons with ⟨_, g2, rfl⟩ | ⟨_, g2, rfl⟩
    · exact .paren _ (ih nofun g2)
    obtain ⟨_, g, -⟩ := g2.tok; exact g.nil.elim
  | call f a hf hc ha ihf iha =>
    intro _ _ ts' _ hr
    refine ex hr fun g => ?_
    rcases g.cons with ⟨_, g2, rfl⟩ | ⟨_, g2, rfl⟩
    · exact .call _ _ (ihf nofun g2) (callable_pu g2 hc) ha
    rcases g2.cons with ⟨_, g3, rfl⟩ | ⟨_, g3, rfl⟩
    · exact .call _ _ hf hc (iha nofun g3)
    exact g3.nil.elim
  | method f a hf hc ha ihf iha =>
    intro _ _ ts' _ hr
    refine ex hr fun g => ?_
    rcases g.cons with ⟨_, g2, rfl⟩ | ⟨_, g2, rfl⟩
    · exact .method _ _ (ihf nofun g2) (callable_pu g2 hc) ha
    obtain ⟨_, g3, rfl⟩ := g2.tok
    obtain ⟨_, g4, rfl⟩ := Pu.nameRef g3
    rcases g4.cons with ⟨_, g5, rfl⟩ | ⟨_, g5, rfl⟩
    · exact .method _ _ hf hc (iha nofun g5)
    exact g5.nil.elim
  | indexE f i hf hc hi ihf ihi =>
    intro _ _ ts' _ hr
    refine ex hr fun g => ?_
    rcases g.cons with ⟨_, g2, rfl⟩ | ⟨_, g2, rfl⟩
    · exact .indexE _ _ (ihf nofun g2) (indexable_pu g2 hc) hi
    rcases g2.cons with ⟨_, g3, rfl⟩ | ⟨_, g3, rfl⟩
    · exact .indexE _ _ hf hc (ihi nofun g3)
    exact g3.nil.elim
  | dot f hf hc ihf =>
    intro _ _ ts' _ hr
    refine ex hr fun g => ?_
    rcases g.cons with ⟨_, g2, rfl⟩ | ⟨_, g2, rfl⟩
    · exact .dot _ (ihf nofun g2) (indexable_pu g2 hc)
    obtain ⟨_, g3, -⟩ := g2.tok
    obtain ⟨_, g, -⟩ := g3.tok; exact g.nil.elim
  | «prefix» op e hop he hl ih =>
    intro _ _ ts' _ hr
    refine ex hr fun g => ?_
    obtain ⟨_, g1, rfl⟩ := g.tok
    rcases g1.cons with ⟨_, g2, rfl⟩ | ⟨_, g2, rfl⟩
    · exact .prefix _ _ hop (ih nofun g2) fun q hq => hl q (leftOps_pu g2 q hq)
    exact g2.nil.elim
  | «infix» op l r hop hl hr' h1 h2 ihl ihr =>
    intro _ _ ts' _ hr
    refine ex hr fun g => ?_
    rcases g.cons with ⟨_, g2, rfl⟩ | ⟨_, g2, rfl⟩
    · exact .infix _ _ _ hop (ihl nofun g2) hr' (fun q hq => h1 q (rightLevels_pu g2 q hq)) h2
    obtain ⟨_, g3, rfl⟩ := g2.tok
    rcases g3.cons with ⟨_, g4, rfl⟩ | ⟨_, g4, rfl⟩
    · exact .infix _ _ _ hop hl (ihr nofun g4) h1 fun q hq => h2 q (leftOps_pu g4 q hq)
    exact g4.nil.elim
  | tailNil => intro _ _ _ _ hr; exact hr.nil.elim
  | tailCons e ts he ht ihe iht =>
    intro _ _ ts' _ hr
    obtain ⟨_, g1, rfl⟩ := hr.tok
    rcases g1.cons with ⟨_, g2, rfl⟩ | ⟨_, g2, rfl⟩
    · exact .tailCons _ _ (ihe nofun g2) ht
    · exact .tailCons _ _ he (iht nofun g2)
  | multival e ts he ht ihe iht =>
    intro _ _ ts' _ hr
    obtain ⟨_, g1, rfl⟩ := hr.other (by decide)
    rcases g1.cons with ⟨_, g2, rfl⟩ | ⟨_, g2, rfl⟩
    · exact .multival _ _ (ihe nofun g2) ht
    · exact .multival _ _ he (iht nofun g2)
  | itemsNil => intro _ _ _ _ hr; exact hr.nil.elim
  | itemsLast c h ih =>
    intro _ _ ts' _ hr
    obtain ⟨_, rfl⟩ := hr.single
    exact .itemsLast _ (ih nofun hr)
  | itemsCons c sep ts h hs ht ih iht =>
    intro _ _ ts' _ hr
    rcases hr.cons with ⟨_, g2, rfl⟩ | ⟨_, g2, rfl⟩
    · exact .itemsCons _ _ _ (ih nofun g2) hs ht
    rcases g2.cons with ⟨_, g3, rfl⟩ | ⟨_, g3, rfl⟩
    · obtain ⟨_, g4, -⟩ := g3.other (by decide)
      obtain ⟨_, g, -⟩ := g4.tok; exact g.nil.elim
    · exact .itemsCons _ _ _ h hs (iht nofun g3)
  | namedField e h ih =>
    intro _ _ ts' _ hr
    obtain ⟨_, g1, rfl⟩ := hr.other (by decide)
    rcases g1.cons with ⟨_, g2, rfl⟩ | ⟨_, g2, -⟩
    · obtain ⟨_, g3, e⟩ := g2.other (by decide)
      simp only [List.cons.injEq, and_true] at e
      subst e
      rcases g3.cons with ⟨_, g4, rfl⟩ | ⟨_, g4, rfl⟩
      · obtain ⟨_, g5, -⟩ := g4.other (by decide)
        obtain ⟨_, g, -⟩ := g5.name; exact g.nil.elim
      obtain ⟨_, g5, rfl⟩ := g4.tok
      obtain ⟨_, rfl⟩ := g5.single
      exact .namedField _ (ih nofun g5)
    exact g2.nil.elim
  | indexedField i e hi h ihi ih =>
    intro _ _ ts' _ hr
    obtain ⟨_, g1, rfl⟩ := hr.other (by decide)
    rcases g1.cons with ⟨_, g2, rfl⟩ | ⟨_, g2, -⟩
    · obtain ⟨_, g3, e⟩ := g2.other (by decide)
      simp only [List.cons.injEq, and_true] at e
      subst e
      rcases g3.cons with ⟨_, g4, rfl⟩ | ⟨_, g4, rfl⟩
      · obtain ⟨_, g5, e⟩ := g4.other (by decide)
        simp only [List.cons.injEq, and_true] at e
        subst e
        obtain ⟨_, rfl⟩ := g5.single
        exact .indexedField _ _ (ihi nofun g5) h
      obtain ⟨_, g5, rfl⟩ := g4.tok
      obtain ⟨_, rfl⟩ := g5.single
      exact .indexedField _ _ hi (ih nofun g5)
    exact g2.nil.elim
  | positional e h ih =>
    intro _ _ ts' _ hr
    obtain ⟨_, g1, rfl⟩ := hr.other (by decide)
    rcases g1.cons with ⟨_, g2, rfl⟩ | ⟨_, g2, -⟩
    · obtain ⟨_, g3, e⟩ := g2.other (by decide)
      simp only [List.cons.injEq, and_true] at e
      subst e
      obtain ⟨_, rfl⟩ := g3.single
      exact .positional _ (ih nofun g3)
    exact g2.nil.elim
  | index e h ih =>
    intro _ _ ts' _ hr
    obtain ⟨_, g, rfl⟩ := hr.other (by decide)
    obtain ⟨_, g1, rfl⟩ := g.tok
    rcases g1.cons with ⟨_, g2, rfl⟩ | ⟨_, g2, rfl⟩
    · exact .index _ (ih nofun g2)
    obtain ⟨_, g, -⟩ := g2.tok; exact g.nil.elim
  | argsEmpty =>
    intro _ _ ts' _ hr
    obtain ⟨_, g, -⟩ := hr.other (by decide)
    rcases g.cons with ⟨_, g2, -⟩ | ⟨_, g2, -⟩
    · obtain ⟨_, g3, -⟩ := g2.other (by decide)
      obtain ⟨_, g4, -⟩ := g3.tok
      obtain ⟨_, g5, -⟩ := g4.tok
      exact g5.nil.elim
    exact g2.nil.elim
  | args m h ih =>
    intro _ _ ts' _ hr
    obtain ⟨_, g, rfl⟩ := hr.other (by decide)
    rcases g.cons with ⟨_, g2, rfl⟩ | ⟨_, g2, -⟩
    · obtain ⟨_, g3, e⟩ := g2.other (by decide)
      simp only [List.cons.injEq, and_true] at e
      subst e
      obtain ⟨_, g4, rfl⟩ := g3.tok
      rcases g4.cons with ⟨_, g5, rfl⟩ | ⟨_, g5, -⟩
      · exact .args _ (ih nofun g5)
      obtain ⟨_, g, -⟩ := g5.tok; exact g.nil.elim
    exact g2.nil.elim
  | argsTable ts h ih =>
    intro _ _ ts' _ hr
    obtain ⟨_, g, rfl⟩ := hr.other (by decide)
    rcases g.cons with ⟨_, g2, rfl⟩ | ⟨_, g2, -⟩
    · rcases g2.node with ⟨h0, -⟩ | ⟨_, g3, e⟩
      · exact absurd (show false = true from h0) (by decide)
      simp only [List.cons.injEq, and_true] at e
      subst e
      obtain ⟨_, g4, rfl⟩ := g3.tok
      rcases g4.app with ⟨_, g5, rfl⟩ | ⟨_, ⟨_, g5⟩, -⟩
      · exact .argsTable _ (ih nofun g5)
      obtain ⟨_, g, -⟩ := g5.tok; exact g.nil.elim
    exact g2.nil.elim
  | argsStr =>
    intro _ _ ts' _ hr
    obtain ⟨_, g, -⟩ := hr.other (by decide)
    obtain ⟨_, g, -⟩ := g.tok; exact g.nil.elim
  | nameTailNil => intro _ _ _ _ hr; exact hr.nil.elim
  | nameTailCons ts h _ => intro _ _ _ _ hr; exact (Pu.noNames (.nameTailCons ts h) hr).elim
  | paramsEmpty =>
    intro _ _ ts' _ hr
    obtain ⟨_, g, -⟩ := hr.other (by decide)
    obtain ⟨_, g, -⟩ := g.tok
    obtain ⟨_, g, -⟩ := g.tok; exact g.nil.elim
  | paramsNames ts h _ =>
    intro _ _ ts' _ hr
    obtain ⟨_, g, -⟩ := hr.other (by decide)
    obtain ⟨_, g, -⟩ := g.tok
    rcases g.cons with ⟨_, g, -⟩ | ⟨_, g, -⟩
    · obtain ⟨_, g, -⟩ := g.other (by decide)
      obtain ⟨_, g, -⟩ := g.name
      exact (Pu.noNames h g).elim
    obtain ⟨_, g, -⟩ := g.tok; exact g.nil.elim
  | paramsVararg =>
    intro _ _ ts' _ hr
    obtain ⟨_, g, -⟩ := hr.other (by decide)
    obtain ⟨_, g, -⟩ := g.tok
    rcases g.cons with ⟨_, g, -⟩ | ⟨_, g, -⟩
    · obtain ⟨_, g, -⟩ := g.other (by decide)
      exact g.nil.elim
    obtain ⟨_, g, -⟩ := g.tok
    obtain ⟨_, g, -⟩ := g.tok; exact g.nil.elim
  | paramsNamesVararg ts h _ =>
    intro _ _ ts' _ hr
    obtain ⟨_, g, -⟩ := hr.other (by decide)
    obtain ⟨_, g, -⟩ := g.tok
    rcases g.cons with ⟨_, g, -⟩ | ⟨_, g, -⟩
    · obtain ⟨_, g, -⟩ := g.other (by decide)
      obtain ⟨_, g, -⟩ := g.name
      rcases g.app with ⟨_, g, -⟩ | ⟨_, ⟨_, g⟩, -⟩
      · exact (Pu.noNames h g).elim
      obtain ⟨_, g, -⟩ := g.tok; exact g.nil.elim
    obtain ⟨_, g, -⟩ := g.tok
    obtain ⟨_, g, -⟩ := g.tok; exact g.nil.elim
  | paramsNoComma ts hx h _ =>
    intro _ _ ts' _ hr
    obtain ⟨_, g, -⟩ := hr.other (by decide)
    obtain ⟨_, g, -⟩ := g.tok
    rcases g.cons with ⟨_, g, -⟩ | ⟨_, g, -⟩
    · obtain ⟨_, g, -⟩ := g.other (by decide)
      obtain ⟨_, g, -⟩ := g.name
      exact (Pu.noNames h g).elim
    obtain ⟨_, g, -⟩ := g.tok
    obtain ⟨_, g, -⟩ := g.tok; exact g.nil.elim
  | block ts h ih =>
    intro _ _ ts' _ hr
    obtain ⟨_, g, rfl⟩ := hr.other (by decide)
    exact .block _ (ih nofun g)
  | stmtsNil => intro _ _ _ _ hr; exact hr.nil.elim
  | stmtsCons s ts hs ht hf ihs iht =>
    intro p s0 ts' _ hr
    obtain ⟨b, a, hw, ok⟩ := hr
    rcases put_app (xs := [s]) (ys := ts) hw with ⟨xs', a', h1, rfl, rfl⟩ | ⟨s1, ys', b', h1, rfl, rfl⟩
    · have hW : Pu E p s0 [s] xs' := ⟨_, _, h1, ok_left ok⟩
      obtain ⟨s', rfl⟩ := hW.single
      refine .stmtsCons _ _ (ihs nofun hW) ht fun k hk => ⟨fun e => ?_, fun e => ?_⟩
      · subst e
        rcases endsCallable_pu h1 with e | rfl
        · simp only [endsCallableL] at e
          rw [e]
          exact (hf _ hk).1 rfl
        · exact absurd (by simpa using hk) ok
      · exfalso
        subst e
        generalize hz : [PTree.node .returnStmt [.tok .returnKw]] = z at h1
        cases h1 with
        | here h =>
          simp only [List.cons.injEq] at hz
          obtain ⟨rfl, -⟩ := hz
          exact notReturn hE
        | down h1 =>
          simp only [List.cons.injEq, PTree.node.injEq, and_true] at hz
          obtain ⟨rfl, rfl⟩ := hz
          generalize hz : [PTree.tok .returnKw] = z at h1
          cases h1 with
          | down => simp at hz
          | tail h1 =>
            simp only [List.cons.injEq] at hz
            obtain ⟨rfl, rfl⟩ := hz
            cases h1
        | tail h1 => cases h1
    · refine .stmtsCons _ _ hs (iht nofun ⟨_, _, h1, ok⟩) fun k hk => ?_
      replace hk : (yieldL ys').head? = some k := hk
      have hb := notFirst ht (.inr (.inr (.inr rfl))) h1 nofun nofun
      obtain ⟨y, e1, e2⟩ := put_yields h1
      cases b' with
      | nil => exact absurd rfl hb
      | cons z zs =>
        rw [e2] at hk
        refine hf k ?_
        rw [e1]
        simpa using hk
  | stmtsSemi s ts hs ht ihs iht =>
    intro _ _ ts' _ hr
    rcases hr.cons with ⟨_, g, rfl⟩ | ⟨_, g, rfl⟩
    · exact .stmtsSemi _ _ (ihs nofun g) ht
    obtain ⟨_, g1, rfl⟩ := g.tok
    exact .stmtsSemi _ _ hs (iht nofun g1)
  | ifStmt e b es he hb hes ihe ihb ihes =>
    intro _ _ ts' _ hr
    obtain ⟨_, g, rfl⟩ := hr.other (by decide)
    obtain ⟨_, g1, rfl⟩ := g.tok
    rcases g1.cons with ⟨_, g2, rfl⟩ | ⟨_, g2, rfl⟩
    · exact .ifStmt _ _ _ (ihe nofun g2) hb hes
    obtain ⟨_, g3, rfl⟩ := g2.tok
    rcases g3.cons with ⟨_, g4, rfl⟩ | ⟨_, g4, rfl⟩
    · exact .ifStmt _ _ _ he (ihb nofun g4) hes
    rcases g4.app with ⟨_, g5, rfl⟩ | ⟨_, ⟨_, g5⟩, rfl⟩
    · exact .ifStmt _ _ _ he hb (ihes nofun g5)
    obtain ⟨_, g, -⟩ := g5.tok; exact g.nil.elim
  | elseNone => intro _ _ _ _ hr; exact hr.nil.elim
  | elseBranch b hb ih =>
    intro _ _ ts' _ hr
    obtain ⟨_, g, rfl⟩ := hr.other (by decide)
    obtain ⟨_, g1, rfl⟩ := g.tok
    obtain ⟨_, rfl⟩ := g1.single
    exact .elseBranch _ (ih nofun g1)
  | elseIf e b es he hb hes ihe ihb ihes =>
    intro _ _ ts' _ hr
    obtain ⟨_, g, rfl⟩ := hr.other (by decide)
    obtain ⟨_, g1, rfl⟩ := g.tok
    rcases g1.cons with ⟨_, g2, rfl⟩ | ⟨_, g2, rfl⟩
    · exact .elseIf _ _ _ (ihe nofun g2) hb hes
    obtain ⟨_, g3, rfl⟩ := g2.tok
    rcases g3.cons with ⟨_, g4, rfl⟩ | ⟨_, g4, rfl⟩
    · exact .elseIf _ _ _ he (ihb nofun g4) hes
    · exact .elseIf _ _ _ he hb (ihes nofun g4)
  | label =>
    intro _ _ ts' _ hr
    have hd : ∀ {p s l}, Pu E p s [PTree.node .labelDelim [.tok .doubleColon]] l → False := by
      intro p s l g
      obtain ⟨_, g, -⟩ := g.other (by decide)
      obtain ⟨_, g, -⟩ := g.tok
      exact g.nil
    obtain ⟨_, g, -⟩ := hr.other (by decide)
    rcases g.cons with ⟨_, g, -⟩ | ⟨_, g, -⟩
    · exact (hd g).elim
    obtain ⟨_, g, -⟩ := g.name
    exact (hd g).elim
  | goto =>
    intro _ _ ts' _ hr
    obtain ⟨_, g, -⟩ := hr.other (by decide)
    obtain ⟨_, g, -⟩ := g.tok
    obtain ⟨_, g, -⟩ := Pu.nameRef g
    exact g.nil.elim
  | «break» =>
    intro _ _ ts' _ hr
    obtain ⟨_, g, -⟩ := hr.other (by decide)
    obtain ⟨_, g, -⟩ := g.tok; exact g.nil.elim
  | doStmt b hb ih =>
    intro _ _ ts' _ hr
    obtain ⟨_, g, rfl⟩ := hr.other (by decide)
    obtain ⟨_, g1, rfl⟩ := g.tok
    rcases g1.cons with ⟨_, g2, rfl⟩ | ⟨_, g2, rfl⟩
    · exact .doStmt _ (ih nofun g2)
    obtain ⟨_, g, -⟩ := g2.tok; exact g.nil.elim
  | «while» e b he hb ihe ihb =>
    intro _ _ ts' _ hr
    obtain ⟨_, g, rfl⟩ := hr.other (by decide)
    obtain ⟨_, g1, rfl⟩ := g.tok
    rcases g1.cons with ⟨_, g2, rfl⟩ | ⟨_, g2, rfl⟩
    · exact .while _ _ (ihe nofun g2) hb
    obtain ⟨_, g3, rfl⟩ := g2.tok
    rcases g3.cons with ⟨_, g4, rfl⟩ | ⟨_, g4, rfl⟩
    · exact .while _ _ he (ihb nofun g4)
    obtain ⟨_, g, -⟩ := g4.tok; exact g.nil.elim
  | «repeat» b e hb he ihb ihe =>
    intro _ _ ts' _ hr
    obtain ⟨_, g, rfl⟩ := hr.other (by decide)
    obtain ⟨_, g1, rfl⟩ := g.tok
    rcases g1.cons with ⟨_, g2, rfl⟩ | ⟨_, g2, rfl⟩
    · exact .repeat _ _ (ihb nofun g2) he
    obtain ⟨_, g3, rfl⟩ := g2.tok
    obtain ⟨_, rfl⟩ := g3.single
    exact .repeat _ _ hb (ihe nofun g3)
  | localFunction p b hp hb ihp ihb =>
    intro _ _ ts' _ hr
    obtain ⟨_, g, rfl⟩ := hr.other (by decide)
    obtain ⟨_, g1, rfl⟩ := g.tok
    obtain ⟨_, g2, rfl⟩ := g1.tok
    obtain ⟨_, g3, rfl⟩ := g2.name
    rcases g3.cons with ⟨_, g4, rfl⟩ | ⟨_, g4, rfl⟩
    · exact .localFunction _ _ (ihp nofun g4) hb
    rcases g4.cons with ⟨_, g5, rfl⟩ | ⟨_, g5, rfl⟩
    · exact .localFunction _ _ hp (ihb nofun g5)
    obtain ⟨_, g, -⟩ := g5.tok; exact g.nil.elim
  | localNames ts h _ =>
    intro _ _ ts' _ hr
    obtain ⟨_, g, -⟩ := hr.other (by decide)
    obtain ⟨_, g, -⟩ := g.tok
    obtain ⟨_, g, -⟩ := g.other (by decide)
    obtain ⟨_, g, -⟩ := g.name
    exact (Pu.noNames h g).elim
  | localAssign ts m h hm _ ihm =>
    intro _ _ ts' _ hr
    obtain ⟨_, g, rfl⟩ := hr.other (by decide)
    obtain ⟨_, g1, rfl⟩ := g.tok
    rcases g1.cons with ⟨_, g2, -⟩ | ⟨_, g2, rfl⟩
    · obtain ⟨_, g3, -⟩ := g2.other (by decide)
      obtain ⟨_, g4, -⟩ := g3.name
      exact (Pu.noNames h g4).elim
    obtain ⟨_, g3, rfl⟩ := g2.tok
    obtain ⟨_, rfl⟩ := g3.single
    exact .localAssign _ _ h (ihm nofun g3)
  | exprStmt m hm hs ih =>
    intro _ _ ts' _ hr
    obtain ⟨_, g, rfl⟩ := hr.other (by decide)
    obtain ⟨_, rfl⟩ := g.single
    exact .exprStmt _ (ih nofun g) (starts_pu hm g hs)
  | assign m m' hm hs hm' ih ih' =>
    intro _ _ ts' _ hr
    obtain ⟨_, g, rfl⟩ := hr.other (by decide)
    rcases g.cons with ⟨_, g2, rfl⟩ | ⟨_, g2, rfl⟩
    · exact .assign _ _ (ih nofun g2) (starts_pu hm g2 hs) hm'
    obtain ⟨_, g3, rfl⟩ := g2.tok
    obtain ⟨_, rfl⟩ := g3.single
    exact .assign _ _ hm hs (ih' nofun g3)
  | returnNone =>
    intro _ _ ts' _ hr
    obtain ⟨_, g, -⟩ := hr.other (by decide)
    obtain ⟨_, g, -⟩ := g.tok; exact g.nil.elim
  | «return» m hm ih =>
    intro _ _ ts' _ hr
    obtain ⟨_, g, rfl⟩ := hr.other (by decide)
    obtain ⟨_, g1, rfl⟩ := g.tok
    obtain ⟨_, rfl⟩ := g1.single
    exact .return _ (ih nofun g1)
  | function_ n p b hn hp hb ihn ihp ihb =>
    intro _ _ ts' _ hr
    obtain ⟨_, g, rfl⟩ := hr.other (by decide)
    obtain ⟨_, g1, rfl⟩ := g.tok
    rcases g1.cons with ⟨_, g2, rfl⟩ | ⟨_, g2, rfl⟩
    · exact .function_ _ _ _ (ihn nofun g2) hp hb
    rcases g2.cons with ⟨_, g3, rfl⟩ | ⟨_, g3, rfl⟩
    · exact .function_ _ _ _ hn (ihp nofun g3) hb
    rcases g3.cons with ⟨_, g4, rfl⟩ | ⟨_, g4, rfl⟩
    · exact .function_ _ _ _ hn hp (ihb nofun g4)
    obtain ⟨_, g, -⟩ := g4.tok; exact g.nil.elim
  | pathNil => intro _ _ _ _ hr; exact hr.nil.elim
  | pathCons ts h _ =>
    intro p _ _ hp hr
    obtain rfl := hp rfl
    exact (Pu.noPath (.pathCons ts h) hr).elim
  | plainName =>
    intro _ _ ts' _ hr
    obtain ⟨_, g, -⟩ := hr.other (by decide)
    obtain ⟨_, g, -⟩ := g.name; exact g.nil.elim
  | methodName ts h _ =>
    intro _ _ ts' _ hr
    obtain ⟨_, g, -⟩ := hr.other (by decide)
    obtain ⟨_, g, -⟩ := g.other (by decide)
    rcases g.cons with ⟨_, g, -⟩ | ⟨_, g, -⟩
    · obtain ⟨_, g, -⟩ := g.other (by decide)
      obtain ⟨_, g, -⟩ := Pu.nameRef g
      exact (Pu.noPath h g).elim
    obtain ⟨_, g, -⟩ := g.tok
    obtain ⟨_, g, -⟩ := g.name; exact g.nil.elim
  | staticName ts h _ =>
    intro _ _ ts' _ hr
    obtain ⟨_, g, -⟩ := hr.other (by decide)
    obtain ⟨_, g, -⟩ := g.other (by decide)
    rcases g.cons with ⟨_, g, -⟩ | ⟨_, g, -⟩
    · obtain ⟨_, g, -⟩ := g.other (by decide)
      obtain ⟨_, g, -⟩ := Pu.nameRef g
      rcases g.app with ⟨_, g, -⟩ | ⟨_, ⟨_, g⟩, -⟩
      · exact (Pu.noPath h g).elim
      obtain ⟨_, g, -⟩ := g.tok; exact g.nil.elim
    obtain ⟨_, g, -⟩ := g.name; exact g.nil.elim
  | staticNoDot ts hx h _ =>
    intro _ _ ts' _ hr
    obtain ⟨_, g, -⟩ := hr.other (by decide)
    obtain ⟨_, g, -⟩ := g.other (by decide)
    rcases g.cons with ⟨_, g, -⟩ | ⟨_, g, -⟩
    · obtain ⟨_, g, -⟩ := g.other (by decide)
      obtain ⟨_, g, -⟩ := Pu.nameRef g
      exact (Pu.noPath h g).elim
    obtain ⟨_, g, -⟩ := g.name; exact g.nil.elim
  | forStmt c b hc hb ihc ihb =>
    intro _ _ ts' _ hr
    obtain ⟨_, g, rfl⟩ := hr.other (by decide)
    obtain ⟨_, g1, rfl⟩ := g.tok
    rcases g1.cons with ⟨_, g2, rfl⟩ | ⟨_, g2, rfl⟩
    · exact .forStmt _ _ (ihc nofun g2) hb
    obtain ⟨_, g3, rfl⟩ := g2.tok
    rcases g3.cons with ⟨_, g4, rfl⟩ | ⟨_, g4, rfl⟩
    · exact .forStmt _ _ hc (ihb nofun g4)
    obtain ⟨_, g, -⟩ := g4.tok; exact g.nil.elim
  | numericFor m hm ih =>
    intro _ _ ts' _ hr
    obtain ⟨_, g1, rfl⟩ := hr.other (by decide)
    rcases g1.cons with ⟨_, g2, rfl⟩ | ⟨_, g2, -⟩
    · obtain ⟨_, g3, e⟩ := g2.other (by decide)
      simp only [List.cons.injEq, and_true] at e
      subst e
      obtain ⟨_, g4, rfl⟩ := g3.name
      obtain ⟨_, g5, rfl⟩ := g4.tok
      obtain ⟨_, rfl⟩ := g5.single
      exact .numericFor _ (ih nofun g5)
    exact g2.nil.elim
  | genericFor ts e h he _ ihe =>
    intro _ _ ts' _ hr
    obtain ⟨_, g1, rfl⟩ := hr.other (by decide)
    rcases g1.cons with ⟨_, g2, rfl⟩ | ⟨_, g2, -⟩
    · obtain ⟨_, g3, e⟩ := g2.other (by decide)
      simp only [List.cons.injEq, and_true] at e
      subst e
      rcases g3.cons with ⟨_, g4, -⟩ | ⟨_, g4, rfl⟩
      · obtain ⟨_, g5, -⟩ := g4.other (by decide)
        obtain ⟨_, g6, -⟩ := g5.name
        exact (Pu.noNames h g6).elim
      obtain ⟨_, g5, rfl⟩ := g4.tok
      obtain ⟨_, rfl⟩ := g5.single
      exact .genericFor _ _ h (ihe nofun g5)
    exact g2.nil.elim
  | genericForList ts m hx h hm _ ihm =>
    intro _ _ ts' _ hr
    obtain ⟨_, g1, rfl⟩ := hr.other (by decide)
    rcases g1.cons with ⟨_, g2, rfl⟩ | ⟨_, g2, -⟩
    · obtain ⟨_, g3, e⟩ := g2.other (by decide)
      simp only [List.cons.injEq, and_true] at e
      subst e
      rcases g3.cons with ⟨_, g4, -⟩ | ⟨_, g4, rfl⟩
      · obtain ⟨_, g5, -⟩ := g4.other (by decide)
        obtain ⟨_, g6, -⟩ := g5.name
        exact (Pu.noNames h g6).elim
      obtain ⟨_, g5, rfl⟩ := g4.tok
      obtain ⟨_, rfl⟩ := g5.single
      exact .genericForList _ _ hx h (ihm nofun g5)
    exact g2.nil.elim


end Put
end Verif
