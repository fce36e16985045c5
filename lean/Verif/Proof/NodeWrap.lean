import Verif.Spec.Wrapping
import Verif.Proof.Nesting
import Verif.Proof.BlockPlace

/-
Putting an expression of a derivation in parentheses.
-/
set_option linter.unusedSimpArgs false

namespace Verif
namespace Wrp
open PTree Lua
open Spec (expressionKinds openPlaces callEnds)

abbrev parenT (e : PTree) : PTree := .node .parenExpr [.tok .lParen, e, .tok .rParen]

/-- One expression of kind `K` of the trees is put in parentheses; the tokens before it and behind it. The flag tells whether
this may be one of the trees themselves. -/
inductive WrapL (K : SyntaxKind) : Bool → List PTree → List PTree → List SyntaxKind → List SyntaxKind → Prop
  | here {cs ts k y} : K ∈ expressionKinds → yieldL cs = k :: y → k ∈ exprFirst →
      WrapL K true (.node K cs :: ts) (parenT (.node K cs) :: ts) [] (yieldL ts)
  | down {p k cs cs' ts b a} : WrapL K (decide (k ∈ openPlaces)) cs cs' b a →
      WrapL K p (.node k cs :: ts) (.node k cs' :: ts) b (a ++ yieldL ts)
  | tail {p t ts ts' b a} : WrapL K p ts ts' b a → WrapL K p (t :: ts) (t :: ts') (yield t ++ b) a

variable {K : SyntaxKind}

theorem yields {p ts ts' b a} (h : WrapL K p ts ts' b a) : ∃ k y, k ∈ exprFirst ∧ yieldL ts = b ++ (k :: y) ++ a ∧
    yieldL ts' = b ++ (.lParen :: k :: y ++ [.rParen]) ++ a := by
  induction h with
  | @here cs ts k y h1 h2 h3 => exact ⟨k, y, h3, by simp [yieldL, PTree.yield, h2], by simp [yieldL, PTree.yield, h2]⟩
  | down _ ih =>
    obtain ⟨k, y, h, e1, e2⟩ := ih
    exact ⟨k, y, h, by simp [yieldL, PTree.yield, e1], by simp [yieldL, PTree.yield, e2]⟩
  | tail _ ih =>
    obtain ⟨k, y, h, e1, e2⟩ := ih
    exact ⟨k, y, h, by simp [yieldL, e1], by simp [yieldL, e2]⟩

/-- what is before and behind allows the parentheses -/
structure Ok (K : SyntaxKind) (b a : List SyntaxKind) : Prop where
  before : ∀ k, b.getLast? = some k → k ∉ callEnds
  behind : K ∈ callableKinds ∨ a.head? ≠ some .lParen

/-- with what is needed to be allowed to -/
def Wr (K : SyntaxKind) (p : Bool) (ts ts' : List PTree) : Prop := ∃ b a, WrapL K p ts ts' b a ∧ Ok K b a

theorem ok_left {b a y} (h : Ok K b (a ++ y)) : Ok K b a := by
  refine ⟨h.before, ?_⟩
  rcases h.behind with h | h
  · exact .inl h
  · refine .inr ?_
    cases a with
    | nil => simp
    | cons => simpa using h

theorem ok_right {b a y} (h : Ok K (y ++ b) a) : Ok K b a := by
  refine ⟨fun k hk => h.before k ?_, h.behind⟩
  rw [List.getLast?_append, hk]; rfl

theorem Wr.nil {p l} (h : Wr K p [] l) : False := by
  obtain ⟨_, _, h, -⟩ := h; cases h

theorem Wr.tok {p k ts l} (h : Wr K p (.tok k :: ts) l) : ∃ ts', Wr K p ts ts' ∧ l = .tok k :: ts' := by
  obtain ⟨_, _, h, o⟩ := h
  cases h with
  | tail h => exact ⟨_, ⟨_, _, h, ok_right o⟩, rfl⟩

theorem Wr.node {p k cs l} (h : Wr K p [.node k cs] l) :
    (p = true ∧ k ∈ expressionKinds ∧ l = [parenT (.node k cs)]) ∨ ∃ cs', Wr K (decide (k ∈ openPlaces)) cs cs' ∧ l = [.node k cs'] := by
  obtain ⟨_, _, h, o⟩ := h
  cases h with
  | here h => exact .inl ⟨rfl, h, rfl⟩
  | down h => exact .inr ⟨_, ⟨_, _, h, ok_left o⟩, rfl⟩
  | tail h => cases h

theorem Wr.other {p k cs l} (h : Wr K p [.node k cs] l) (hk : k ∉ expressionKinds) :
    ∃ cs', Wr K (decide (k ∈ openPlaces)) cs cs' ∧ l = [.node k cs'] := by
  rcases h.node with ⟨-, h, -⟩ | h
  · exact absurd h hk
  · exact h

theorem Wr.cons {p t ts l} (h : Wr K p (t :: ts) l) :
    (∃ t', Wr K p [t] [t'] ∧ l = t' :: ts) ∨ ∃ ts', Wr K p ts ts' ∧ l = t :: ts' := by
  obtain ⟨_, _, h, o⟩ := h
  cases h with
  | here h1 h2 h3 => exact .inl ⟨_, ⟨_, _, .here (ts := []) h1 h2 h3, ⟨by simp, .inr (by simp [yieldL])⟩⟩, rfl⟩
  | down h => exact .inl ⟨_, ⟨_, _, .down (ts := []) h, by simpa [yieldL] using ok_left o⟩, rfl⟩
  | tail h => exact .inr ⟨_, ⟨_, _, h, ok_right o⟩, rfl⟩

theorem wrap_app {p xs ys l b a} (h : WrapL K p (xs ++ ys) l b a) :
    (∃ xs' a', WrapL K p xs xs' b a' ∧ l = xs' ++ ys ∧ a = a' ++ yieldL ys) ∨
    ∃ ys' b', WrapL K p ys ys' b' a ∧ l = xs ++ ys' ∧ b = yieldL xs ++ b' := by
  have yap : ∀ {a b : List PTree}, yieldL (a ++ b) = yieldL a ++ yieldL b := by
    intro a b; induction a <;> simp_all [yieldL]
  induction xs generalizing l b with
  | nil => exact .inr ⟨l, b, h, rfl, by simp [yieldL]⟩
  | cons t xs ih =>
    simp only [List.cons_append] at h
    cases h with
    | here h1 h2 h3 => exact .inl ⟨_, _, .here (ts := xs) h1 h2 h3, rfl, by rw [yap]⟩
    | down h => exact .inl ⟨_, _, .down (ts := xs) h, rfl, by rw [yap]; simp⟩
    | tail h =>
      rcases ih h with ⟨xs', a', h2, rfl, rfl⟩ | ⟨ys', b', h2, rfl, rfl⟩
      · exact .inl ⟨_, _, .tail h2, rfl, rfl⟩
      · exact .inr ⟨_, _, h2, rfl, by simp [yieldL]⟩

theorem Wr.app {p xs ys l} (h : Wr K p (xs ++ ys) l) :
    (∃ xs', Wr K p xs xs' ∧ l = xs' ++ ys) ∨ ∃ ys', Wr K p ys ys' ∧ l = xs ++ ys' := by
  obtain ⟨_, _, h, o⟩ := h
  rcases wrap_app h with ⟨_, _, h1, rfl, rfl⟩ | ⟨_, _, h1, rfl, rfl⟩
  · exact .inl ⟨_, ⟨_, _, h1, ok_left o⟩, rfl⟩
  · exact .inr ⟨_, ⟨_, _, h1, ok_right o⟩, rfl⟩

theorem Wr.single {p t l} (h : Wr K p [t] l) : ∃ t', l = [t'] := by
  rcases h.cons with ⟨t', -, rfl⟩ | ⟨_, h, -⟩
  · exact ⟨_, rfl⟩
  · exact h.nil.elim

theorem Wr.name {p ts l} (h : Wr K p (nameT :: ts) l) : ∃ ts', Wr K p ts ts' ∧ l = nameT :: ts' := by
  rcases h.cons with ⟨t', h1, rfl⟩ | h
  · obtain ⟨_, h2, -⟩ := h1.other (by decide)
    obtain ⟨_, h3, -⟩ := h2.tok
    exact h3.nil.elim
  · exact h

theorem Wr.nameRef {ts l} (h : Wr K false (nameRefT :: ts) l) : ∃ ts', Wr K false ts ts' ∧ l = nameRefT :: ts' := by
  rcases h.cons with ⟨t', h1, rfl⟩ | h
  · rcases h1.node with ⟨h, -⟩ | ⟨_, h2, -⟩
    · cases h
    · obtain ⟨_, h3, -⟩ := h2.tok
      exact h3.nil.elim
  · exact h

/-- the name of a method is not put in parentheses -/
theorem Wr.methodName {p ts l} (h : Wr K p (.tok .colon :: nameRefT :: ts) l) :
    ∃ ts', Wr K p ts ts' ∧ l = .tok .colon :: nameRefT :: ts' := by
  obtain ⟨b, a, h, o⟩ := h
  cases h with
  | tail h =>
    cases h with
    | here => exact absurd (show SyntaxKind.colon ∈ callEnds by decide) (o.before _ (by simp [PTree.yield]))
    | down h => cases h with | tail h => cases h
    | tail h => exact ⟨_, ⟨_, _, h, ok_right (ok_right o)⟩, rfl⟩

theorem Wr.noNames {p x ts l} (hd : Deriv x .nameTail ts) (h : Wr K p ts l) : False := by
  generalize hn : NT.nameTail = nt at hd
  induction hd generalizing l <;> cases hn
  · exact h.nil
  · rename_i ih
    obtain ⟨_, h1, -⟩ := h.tok
    obtain ⟨_, h2, -⟩ := h1.name
    exact ih h2 rfl

theorem Wr.noPath {x ts l} (hd : Deriv x .pathTail ts) (h : Wr K false ts l) : False := by
  generalize hn : NT.pathTail = nt at hd
  induction hd generalizing l <;> cases hn
  · exact h.nil
  · rename_i ih
    obtain ⟨_, h1, -⟩ := h.tok
    obtain ⟨_, h2, -⟩ := h1.nameRef
    exact ih h2 rfl

theorem kind_cases {p t t'} (h : Wr K p [t] [t']) : kindOf t' = kindOf t ∨ kindOf t' = some .parenExpr := by
  obtain ⟨_, _, h, -⟩ := h
  cases h with
  | here => exact .inr rfl
  | down => exact .inl rfl
  | tail h => cases h

theorem callable_wr {p t t'} (h : Wr K p [t] [t']) (hc : callable t) : callable t' := by
  rcases kind_cases h with e | e <;> simp [callable, indexable, e] at hc ⊢
  exact hc

theorem indexable_wr {p t t'} (h : Wr K p [t] [t']) (hc : indexable t) : indexable t' := by
  rcases kind_cases h with e | e <;> simp [indexable, e] at hc ⊢
  exact hc

theorem leftOps_wr {p t t'} (h : Wr K p [t] [t']) : ∀ q ∈ leftOps t', q ∈ leftOps t := by
  have key : ∀ n, ∀ t, sizeOf t < n → ∀ {p t'}, Wr K p [t] [t'] → ∀ q ∈ leftOps t', q ∈ leftOps t := by
    intro n
    induction n with
    | zero => intro t h; omega
    | succ n ih =>
      intro t hn p t' h0 q hq
      cases t with
      | tok => obtain ⟨_, h, -⟩ := h0.tok; exact h.nil.elim
      | err => obtain ⟨_, _, h, -⟩ := h0; cases h with | tail h => cases h
      | errNode => obtain ⟨_, _, h, -⟩ := h0; cases h with | tail h => cases h
      | node k cs =>
        rcases h0.node with ⟨-, -, e⟩ | ⟨cs', h1, e⟩
        · simp only [List.cons.injEq, and_true] at e; subst e; simp [leftOps] at hq
        · simp only [List.cons.injEq, and_true] at e; subst e
          unfold leftOps at hq
          split at hq
          · rename_i l op rest e
            simp only [PTree.node.injEq] at e
            obtain ⟨rfl, rfl⟩ := e
            cases cs with
            | nil => exact h1.nil.elim
            | cons c cs =>
              rcases h1.cons with ⟨c', h2, e⟩ | ⟨_, h2, e⟩
              · simp only [List.cons.injEq] at e
                obtain ⟨rfl, rfl⟩ := e
                simp only [leftOps, List.mem_cons] at hq ⊢
                rcases hq with rfl | hq
                · exact .inl rfl
                · exact .inr (ih c (by simp at hn; omega) h2 q hq)
              · simp only [List.cons.injEq] at e
                obtain ⟨rfl, rfl⟩ := e
                cases cs with
                | nil => exact h2.nil.elim
                | cons c2 cs =>
                  cases c2 with
                  | tok =>
                    obtain ⟨_, h, e⟩ := h2.tok
                    simp only [List.cons.injEq, PTree.tok.injEq] at e
                    obtain ⟨rfl, rfl⟩ := e
                    simpa [leftOps] using hq
                  | err | errNode =>
                    obtain ⟨_, _, h, -⟩ := h2
                    cases h
                  | node k2 cs2 =>
                    exfalso
                    obtain ⟨_, _, h, -⟩ := h2
                    cases h
          · simp at hq
  exact key _ t (Nat.lt_succ_self _) h

theorem rightLevels_wr {p t t'} (h : Wr K p [t] [t']) : ∀ q ∈ rightLevels t', q ∈ rightLevels t := by
  have key : ∀ n, ∀ t, sizeOf t < n → ∀ {p t'}, Wr K p [t] [t'] → ∀ q ∈ rightLevels t', q ∈ rightLevels t := by
    intro n
    induction n with
    | zero => intro t h; omega
    | succ n ih =>
      intro t hn p t' h0 q hq
      cases t with
      | tok => obtain ⟨_, h, -⟩ := h0.tok; exact h.nil.elim
      | err => obtain ⟨_, _, h, -⟩ := h0; cases h with | tail h => cases h
      | errNode => obtain ⟨_, _, h, -⟩ := h0; cases h with | tail h => cases h
      | node k cs =>
        rcases h0.node with ⟨-, -, e⟩ | ⟨cs', h1, e⟩
        · simp only [List.cons.injEq, and_true] at e; subst e; simp [rightLevels] at hq
        · simp only [List.cons.injEq, and_true] at e; subst e
          have notok : ∀ {p c} {k}, Wr K p [c] [.tok k] → False := by
            intro p c k h
            obtain ⟨_, _, h, -⟩ := h
            cases h with | tail g => exact nomatch g
          unfold rightLevels at hq
          split at hq
          · rename_i l op r e
            simp only [PTree.node.injEq] at e
            obtain ⟨rfl, rfl⟩ := e
            cases cs with
            | nil => exact h1.nil.elim
            | cons c cs =>
              rcases h1.cons with ⟨c', h2, e⟩ | ⟨_, h2, e⟩
              · simp only [List.cons.injEq] at e
                obtain ⟨rfl, rfl⟩ := e
                simpa [rightLevels] using hq
              · simp only [List.cons.injEq] at e
                obtain ⟨rfl, rfl⟩ := e
                cases cs with
                | nil => exact h2.nil.elim
                | cons c2 cs =>
                  rcases h2.cons with ⟨c2', h3, e⟩ | ⟨_, h3, e⟩
                  · simp only [List.cons.injEq] at e
                    obtain ⟨rfl, rfl⟩ := e
                    exact (notok h3).elim
                  · simp only [List.cons.injEq] at e
                    obtain ⟨rfl, rfl⟩ := e
                    cases cs with
                    | nil => exact h3.nil.elim
                    | cons c3 cs =>
                      rcases h3.cons with ⟨c3', h4, e⟩ | ⟨_, h4, e⟩
                      · simp only [List.cons.injEq] at e
                        obtain ⟨rfl, rfl⟩ := e
                        simp only [rightLevels, List.mem_cons] at hq ⊢
                        rcases hq with rfl | hq
                        · exact .inl rfl
                        · exact .inr (ih c3 (by simp at hn; omega) h4 q hq)
                      · simp only [List.cons.injEq] at e
                        obtain ⟨rfl, rfl⟩ := e
                        cases cs with
                        | nil => exact h4.nil.elim
                        | cons c4 cs =>
                          rcases h4.cons with ⟨c4', h5, e⟩ | ⟨_, h5, e⟩ <;> simp at e
          · rename_i op e2 e
            simp only [PTree.node.injEq] at e
            obtain ⟨rfl, rfl⟩ := e
            cases cs with
            | nil => exact h1.nil.elim
            | cons c cs =>
              rcases h1.cons with ⟨c', h2, e⟩ | ⟨_, h2, e⟩
              · simp only [List.cons.injEq] at e
                obtain ⟨rfl, rfl⟩ := e
                exact (notok h2).elim
              · simp only [List.cons.injEq] at e
                obtain ⟨rfl, rfl⟩ := e
                cases cs with
                | nil => exact h2.nil.elim
                | cons c2 cs =>
                  rcases h2.cons with ⟨c2', h3, e⟩ | ⟨_, h3, e⟩
                  · simp only [List.cons.injEq] at e
                    obtain ⟨rfl, rfl⟩ := e
                    simp only [rightLevels, List.mem_cons] at hq ⊢
                    rcases hq with rfl | hq
                    · exact .inl rfl
                    · exact .inr (ih c2 (by simp at hn; omega) h3 q hq)
                  · simp only [List.cons.injEq] at e
                    obtain ⟨rfl, rfl⟩ := e
                    cases cs with
                    | nil => exact h3.nil.elim
                    | cons c3 cs =>
                      rcases h3.cons with ⟨c3', h4, e⟩ | ⟨_, h4, e⟩ <;> simp at e
          · simp at hq
  exact key _ t (Nat.lt_succ_self _) h

theorem endsCallable_wr {p ts ts' b a} (h : WrapL K p ts ts' b a) :
    endsCallableL ts' = endsCallableL ts ∨ (a = [] ∧ K ∉ callableKinds) := by
  induction h with
  | @here cs ts k y hK _ _ =>
    cases ts with
    | cons t ts => exact .inl (by simp [endsCallableL])
    | nil =>
      by_cases hc : K ∈ callableKinds
      · left
        have : K ∉ endsInExpr := by
          have : ∀ k ∈ callableKinds, k ∉ endsInExpr := by decide
          exact this K hc
        simp only [endsCallableL, endsCallable, this, if_false, hc, decide_true]
        decide
      · exact .inr ⟨by simp [yieldL], hc⟩
  | @down p k cs cs' ts b a h ih =>
    cases ts with
    | cons t ts => exact .inl (by simp [endsCallableL])
    | nil =>
      rcases ih with ih | ⟨rfl, ih⟩
      · exact .inl (by simp only [endsCallableL, endsCallable, ih])
      · exact .inr ⟨by simp [yieldL], ih⟩
  | @tail p t ts ts' b a h ih =>
    rcases ih with ih | ih
    · left
      cases ts with
      | nil => cases h
      | cons t2 ts2 =>
        cases ts' with
        | nil => cases h
        | cons t3 ts3 => simpa [endsCallableL] using ih
    · exact .inr ih

theorem starts_wr {p m m'} (h : Wr K p [m] [m']) (hs : startsStmt m) : startsStmt m' := by
  obtain ⟨b, a, h, -⟩ := h
  obtain ⟨k, y, -, e1, e2⟩ := yields h
  simp only [yieldL, List.append_nil] at e1 e2
  cases b with
  | nil => exact .inr (by rw [e2]; simp)
  | cons z zs => simpa [startsStmt, e1, e2] using hs

/-- the last tokens of what can be called -/
def callLast : List SyntaxKind := [.ident, .rParen, .rBracket, .rBrace, .endKw, .str]

/-- What ends in an expression that can be called ends in one of these tokens. -/
theorem ends_token {x nt ts} (h : Deriv x nt ts) : endsCallableL ts = true → ∃ k ∈ callLast, (yieldL ts).getLast? = some k := by
  have yap : ∀ {a b : List PTree}, yieldL (a ++ b) = yieldL a ++ yieldL b := by
    intro a b; induction a <;> simp_all [yieldL]
  have lst : ∀ {t : PTree} {ts : List PTree}, (ts = [] → ∃ k ∈ callLast, (yield t).getLast? = some k) →
      (ts ≠ [] → ∃ k ∈ callLast, (yieldL ts).getLast? = some k) → ∃ k ∈ callLast, (yieldL (t :: ts)).getLast? = some k := by
    intro t ts h1 h2
    cases ts with
    | nil => simpa [yieldL] using h1 rfl
    | cons s ts =>
      obtain ⟨k, hk, e⟩ := h2 (by simp)
      refine ⟨k, hk, ?_⟩
      rw [yieldL, List.getLast?_append, e]; rfl
  have cal : ∀ {x a}, Deriv x .callArgs [a] → ∃ k ∈ callLast, (yield a).getLast? = some k := by
    intro x a h
    cases h with
    | argsEmpty => exact ⟨.rParen, by decide, by simp [PTree.yield, yieldL, List.getLast?_cons, List.getLast?_append]⟩
    | args m h => exact ⟨.rParen, by decide, by simp [PTree.yield, yieldL, List.getLast?_cons, List.getLast?_append]⟩
    | argsTable ts h => exact ⟨.rBrace, by decide, by simp [PTree.yield, yieldL, yap, List.getLast?_cons, List.getLast?_append]⟩
    | argsStr => exact ⟨.str, by decide, by simp [PTree.yield, yieldL, List.getLast?_cons, List.getLast?_append]⟩
  have two : ∀ {a b : List SyntaxKind}, (∃ k ∈ callLast, b.getLast? = some k) → ∃ k ∈ callLast, (a ++ b).getLast? = some k := by
    rintro a b ⟨k, hk, e⟩
    exact ⟨k, hk, by rw [List.getLast?_append, e]; rfl⟩
  induction h with
  | nameRef => exact fun _ => ⟨.ident, by decide, by simp [PTree.yield, yieldL, List.getLast?_cons, List.getLast?_append]⟩
  | function => exact fun _ => ⟨.endKw, by decide, by simp [PTree.yield, yieldL, List.getLast?_cons, List.getLast?_append]⟩
  | table => exact fun _ => ⟨.rBrace, by decide, by simp [PTree.yield, yieldL, yap, List.getLast?_cons, List.getLast?_append]⟩
  | paren => exact fun _ => ⟨.rParen, by decide, by simp [PTree.yield, yieldL, List.getLast?_cons, List.getLast?_append]⟩
  | call f a _ _ ha => exact fun _ => by have := two (a := yield f) (cal ha); simpa [PTree.yield, yieldL] using this
  | method f a _ _ ha => exact fun _ => by have := two (a := yield f ++ [.colon, .ident]) (cal ha); simpa [PTree.yield, yieldL] using this
  | indexE f i _ _ hi =>
    intro _
    cases hi with
    | index e => exact ⟨.rBracket, by decide, by simp [PTree.yield, yieldL, List.getLast?_cons, List.getLast?_append]⟩
  | dot => exact fun _ => ⟨.ident, by decide, by simp [PTree.yield, yieldL, List.getLast?_cons, List.getLast?_append]⟩
  | «prefix» op e _ _ _ ih =>
    intro he
    have := two (a := [op]) (ih (by simpa [endsCallableL, endsCallable, endsInExpr] using he))
    simpa [PTree.yield, yieldL] using this
  | «infix» op l r _ _ _ _ _ _ ih =>
    intro he
    have := two (a := yield l ++ [op]) (ih (by simpa [endsCallableL, endsCallable, endsInExpr] using he))
    simpa [PTree.yield, yieldL] using this
  | tailCons e ts _ _ ih1 ih2 =>
    intro he
    have h2 : ∃ k ∈ callLast, (yieldL (e :: ts)).getLast? = some k := by
      refine lst (fun h => ?_) (fun h => ih2 ?_)
      · subst h; simpa [yieldL] using ih1 (by simpa [endsCallableL] using he)
      · cases ts with
        | nil => exact absurd rfl h
        | cons => simpa [endsCallableL] using he
    have := two (a := [.comma]) h2
    simpa [PTree.yield, yieldL] using this
  | multival e ts _ _ ih1 ih2 =>
    intro he
    have he : endsCallableL (e :: ts) = true := by simpa [endsCallableL, endsCallable, endsInExpr] using he
    have h2 : ∃ k ∈ callLast, (yieldL (e :: ts)).getLast? = some k := by
      refine lst (fun h => ?_) (fun h => ih2 ?_)
      · subst h; simpa [yieldL] using ih1 (by simpa [endsCallableL] using he)
      · cases ts with
        | nil => exact absurd rfl h
        | cons => simpa [endsCallableL] using he
    simpa [PTree.yield, yieldL] using h2
  | itemsLast c _ ih => exact ih
  | itemsCons c sep ts h1 _ _ _ ih2 =>
    intro he
    cases ts with
    | nil => exact absurd he (by simp [endsCallableL, endsCallable, endsInExpr, callableKinds])
    | cons t ts =>
      have := two (a := yield c ++ [sep]) (ih2 (by simpa [endsCallableL] using he))
      simpa [PTree.yield, yieldL] using this
  | nameTailCons ts _ ih =>
    intro he
    cases ts with
    | nil => exact absurd he (by simp [endsCallableL, endsCallable, endsInExpr, callableKinds])
    | cons t ts =>
      have := two (a := [.comma, .ident]) (ih (by simpa [endsCallableL] using he))
      simpa [PTree.yield, yieldL] using this
  | pathCons ts _ ih =>
    intro he
    cases ts with
    | nil => exact ⟨.ident, by decide, by simp [PTree.yield, yieldL, List.getLast?_cons, List.getLast?_append]⟩
    | cons t ts =>
      have := two (a := [.dot, .ident]) (ih (by simpa [endsCallableL] using he))
      simpa [PTree.yield, yieldL] using this
  | stmtsCons s ts _ _ _ ih1 ih2 =>
    intro he
    refine lst (fun h => ?_) (fun h => ih2 ?_)
    · subst h; simpa [yieldL] using ih1 (by simpa [endsCallableL] using he)
    · cases ts with
      | nil => exact absurd rfl h
      | cons => simpa [endsCallableL] using he
  | stmtsSemi s ts _ _ ih1 ih2 =>
    intro he
    cases ts with
    | nil => exact absurd he (by simp [endsCallableL, endsCallable])
    | cons t ts =>
      have := two (a := yield s ++ [.semicolon]) (ih2 (by simpa [endsCallableL] using he))
      simpa [PTree.yield, yieldL] using this
  | «repeat» b e _ _ _ ih =>
    intro he
    have := two (a := .repeatKw :: (yield b ++ [.untilKw])) (ih (by simpa [endsCallableL, endsCallable, endsInExpr] using he))
    simpa [PTree.yield, yieldL] using this
  | localAssign ts m _ _ _ ih =>
    intro he
    have := two (a := .localKw :: .ident :: (yieldL ts ++ [.eq])) (ih (by simpa [endsCallableL, endsCallable, endsInExpr] using he))
    simpa [PTree.yield, yieldL] using this
  | exprStmt m _ _ ih =>
    intro he
    simpa [PTree.yield, yieldL] using ih (by simpa [endsCallableL, endsCallable, endsInExpr] using he)
  | assign m m' _ _ _ _ ih =>
    intro he
    have := two (a := yield m ++ [.eq]) (ih (by simpa [endsCallableL, endsCallable, endsInExpr] using he))
    simpa [PTree.yield, yieldL] using this
  | «return» m _ ih =>
    intro he
    have := two (a := [.returnKw]) (ih (by simpa [endsCallableL, endsCallable, endsInExpr] using he))
    simpa [PTree.yield, yieldL] using this
  | _ => intro he; simp [endsCallableL, endsCallable, endsInExpr, callableKinds] at he

theorem ends_last {x nt ts} (h : Deriv x nt ts) (he : endsCallableL ts = true) : ∃ k ∈ callEnds, (yieldL ts).getLast? = some k := by
  obtain ⟨k, hk, e⟩ := ends_token h he
  exact ⟨k, (by decide : ∀ k ∈ callLast, k ∈ callEnds) k hk, e⟩

/-- **The derivation** with an expression in parentheses. -/
theorem deriv_wrap {x nt ts} (h : Deriv x nt ts) : ∀ {p ts'}, (nt = .pathTail → p = false) → Wr K p ts ts' → Deriv x nt ts' := by
  have ex : ∀ {p k cs l}, Deriv x .expr [.node k cs] → Wr K p [.node k cs] l →
      (∀ {cs'}, Wr K (decide (k ∈ openPlaces)) cs cs' → Deriv x .expr [.node k cs']) → Deriv x .expr l := by
    intro p k cs l h1 h2 h3
    rcases h2.node with ⟨-, -, rfl⟩ | ⟨cs', g, rfl⟩
    · exact .paren _ h1
    · exact h3 g
  induction h with
  | nameRef =>
    intro p ts' _ hr
    exact ex .nameRef hr fun g => by obtain ⟨_, g, -⟩ := g.tok; exact g.nil.elim
  | literal k hk =>
    intro p ts' _ hr
    exact ex (.literal k hk) hr fun g => by obtain ⟨_, g, -⟩ := g.tok; exact g.nil.elim
  | function p b hp hb ihp ihb =>
    intro _ ts' _ hr
    refine ex (.function p b hp hb) hr fun g => ?_
    obtain ⟨_, g1, rfl⟩ := g.tok
    rcases g1.cons with ⟨_, g2, rfl⟩ | ⟨_, g2, rfl⟩
    · exact .function _ _ (ihp nofun g2) hb
    rcases g2.cons with ⟨_, g3, rfl⟩ | ⟨_, g3, rfl⟩
    · exact .function _ _ hp (ihb nofun g3)
    obtain ⟨_, g, -⟩ := g3.tok; exact g.nil.elim
  | table ts h ih =>
    intro _ ts' _ hr
    refine ex (.table ts h) hr fun g => ?_
    obtain ⟨_, g1, rfl⟩ := g.tok
    rcases g1.app with ⟨_, g2, rfl⟩ | ⟨_, g2, rfl⟩
    · exact .table _ (ih nofun g2)
    obtain ⟨_, g, -⟩ := g2.tok; exact g.nil.elim
  | paren e h ih =>
    intro _ ts' _ hr
    refine ex (.paren e h) hr fun g => ?_
    obtain ⟨_, g1, rfl⟩ := g.tok
    rcases g1.cons with ⟨_, g2, rfl⟩ | ⟨_, g2, rfl⟩
    · exact .paren _ (ih nofun g2)
    obtain ⟨_, g, -⟩ := g2.tok; exact g.nil.elim
  | call f a hf hc ha ihf iha =>
    intro _ ts' _ hr
    refine ex (.call f a hf hc ha) hr fun g => ?_
    rcases g.cons with ⟨_, g2, rfl⟩ | ⟨_, g2, rfl⟩
    · exact .call _ _ (ihf nofun g2) (callable_wr g2 hc) ha
    rcases g2.cons with ⟨_, g3, rfl⟩ | ⟨_, g3, rfl⟩
    · exact .call _ _ hf hc (iha nofun g3)
    exact g3.nil.elim
  | method f a hf hc ha ihf iha =>
    intro _ ts' _ hr
    refine ex (.method f a hf hc ha) hr fun g => ?_
    rcases g.cons with ⟨_, g2, rfl⟩ | ⟨_, g2, rfl⟩
    · exact .method _ _ (ihf nofun g2) (callable_wr g2 hc) ha
    obtain ⟨_, g4, rfl⟩ := g2.methodName
    rcases g4.cons with ⟨_, g5, rfl⟩ | ⟨_, g5, rfl⟩
    · exact .method _ _ hf hc (iha nofun g5)
    exact g5.nil.elim
  | indexE f i hf hc hi ihf ihi =>
    intro _ ts' _ hr
    refine ex (.indexE f i hf hc hi) hr fun g => ?_
    rcases g.cons with ⟨_, g2, rfl⟩ | ⟨_, g2, rfl⟩
    · exact .indexE _ _ (ihf nofun g2) (indexable_wr g2 hc) hi
    rcases g2.cons with ⟨_, g3, rfl⟩ | ⟨_, g3, rfl⟩
    · exact .indexE _ _ hf hc (ihi nofun g3)
    exact g3.nil.elim
  | dot f hf hc ihf =>
    intro _ ts' _ hr
    refine ex (.dot f hf hc) hr fun g => ?_
    rcases g.cons with ⟨_, g2, rfl⟩ | ⟨_, g2, rfl⟩
    · exact .dot _ (ihf nofun g2) (indexable_wr g2 hc)
    obtain ⟨_, g3, -⟩ := g2.tok
    obtain ⟨_, g, -⟩ := g3.tok; exact g.nil.elim
  | «prefix» op e hop he hl ih =>
    intro _ ts' _ hr
    refine ex (.prefix op e hop he hl) hr fun g => ?_
    obtain ⟨_, g1, rfl⟩ := g.tok
    rcases g1.cons with ⟨_, g2, rfl⟩ | ⟨_, g2, rfl⟩
    · exact .prefix _ _ hop (ih nofun g2) fun q hq => hl q (leftOps_wr g2 q hq)
    exact g2.nil.elim
  | «infix» op l r hop hl hr' h1 h2 ihl ihr =>
    intro _ ts' _ hr
    refine ex (.infix op l r hop hl hr' h1 h2) hr fun g => ?_
    rcases g.cons with ⟨_, g2, rfl⟩ | ⟨_, g2, rfl⟩
    · exact .infix _ _ _ hop (ihl nofun g2) hr' (fun q hq => h1 q (rightLevels_wr g2 q hq)) h2
    obtain ⟨_, g3, rfl⟩ := g2.tok
    rcases g3.cons with ⟨_, g4, rfl⟩ | ⟨_, g4, rfl⟩
    · exact .infix _ _ _ hop hl (ihr nofun g4) h1 fun q hq => h2 q (leftOps_wr g4 q hq)
    exact g4.nil.elim
  | tailNil => intro _ _ _ hr; exact hr.nil.elim
  | tailCons e ts he ht ihe iht =>
    intro _ ts' _ hr
    obtain ⟨_, g1, rfl⟩ := hr.tok
    rcases g1.cons with ⟨_, g2, rfl⟩ | ⟨_, g2, rfl⟩
    · exact .tailCons _ _ (ihe nofun g2) ht
    · exact .tailCons _ _ he (iht nofun g2)
  | multival e ts he ht ihe iht =>
    intro _ ts' _ hr
    obtain ⟨_, g1, rfl⟩ := hr.other (by decide)
    rcases g1.cons with ⟨_, g2, rfl⟩ | ⟨_, g2, rfl⟩
    · exact .multival _ _ (ihe nofun g2) ht
    · exact .multival _ _ he (iht nofun g2)
  | itemsNil => intro _ _ _ hr; exact hr.nil.elim
  | itemsLast c h ih =>
    intro _ ts' _ hr
    obtain ⟨_, rfl⟩ := hr.single
    exact .itemsLast _ (ih nofun hr)
  | itemsCons c sep ts h hs ht ih iht =>
    intro _ ts' _ hr
    rcases hr.cons with ⟨_, g2, rfl⟩ | ⟨_, g2, rfl⟩
    · exact .itemsCons _ _ _ (ih nofun g2) hs ht
    rcases g2.cons with ⟨_, g3, rfl⟩ | ⟨_, g3, rfl⟩
    · obtain ⟨_, g4, -⟩ := g3.other (by decide)
      obtain ⟨_, g, -⟩ := g4.tok; exact g.nil.elim
    · exact .itemsCons _ _ _ h hs (iht nofun g3)
  | namedField e h ih =>
    intro _ ts' _ hr
    obtain ⟨_, g1, rfl⟩ := hr.other (by decide)
    rcases g1.cons with ⟨_, g2, rfl⟩ | ⟨_, g2, -⟩
    · obtain ⟨_, g3, e⟩ := g2.other (by decide)
      simp only [List.cons.injEq, and_true] at e
      subst e
      rcases g3.cons with ⟨_, g4, rfl⟩ | ⟨_, g4, rfl⟩
      · obtain ⟨_, g5, -⟩ := g4.other (by decide)
        obtain ⟨_, g, -⟩ := g5.name; exact g.nil.elim
      obtain ⟨_, g5, rfl⟩ := g4.tok
      obtain ⟨_, rfl⟩ := g5.single
      exact .namedField _ (ih nofun g5)
    exact g2.nil.elim
  | indexedField i e hi h ihi ih =>
    intro _ ts' _ hr
    obtain ⟨_, g1, rfl⟩ := hr.other (by decide)
    rcases g1.cons with ⟨_, g2, rfl⟩ | ⟨_, g2, -⟩
    · obtain ⟨_, g3, e⟩ := g2.other (by decide)
      simp only [List.cons.injEq, and_true] at e
      subst e
      rcases g3.cons with ⟨_, g4, rfl⟩ | ⟨_, g4, rfl⟩
      · obtain ⟨_, g5, e⟩ := g4.other (by decide)
        simp only [List.cons.injEq, and_true] at e
        subst e
        obtain ⟨_, rfl⟩ := g5.single
        exact .indexedField _ _ (ihi nofun g5) h
      obtain ⟨_, g5, rfl⟩ := g4.tok
      obtain ⟨_, rfl⟩ := g5.single
      exact .indexedField _ _ hi (ih nofun g5)
    exact g2.nil.elim
  | positional e h ih =>
    intro _ ts' _ hr
    obtain ⟨_, g1, rfl⟩ := hr.other (by decide)
    rcases g1.cons with ⟨_, g2, rfl⟩ | ⟨_, g2, -⟩
    · obtain ⟨_, g3, e⟩ := g2.other (by decide)
      simp only [List.cons.injEq, and_true] at e
      subst e
      obtain ⟨_, rfl⟩ := g3.single
      exact .positional _ (ih nofun g3)
    exact g2.nil.elim
  | index e h ih =>
    intro _ ts' _ hr
    obtain ⟨_, g, rfl⟩ := hr.other (by decide)
    obtain ⟨_, g1, rfl⟩ := g.tok
    rcases g1.cons with ⟨_, g2, rfl⟩ | ⟨_, g2, rfl⟩
    · exact .index _ (ih nofun g2)
    obtain ⟨_, g, -⟩ := g2.tok; exact g.nil.elim
  | argsEmpty =>
    intro _ ts' _ hr
    obtain ⟨_, g, -⟩ := hr.other (by decide)
    rcases g.cons with ⟨_, g2, -⟩ | ⟨_, g2, -⟩
    · obtain ⟨_, g3, -⟩ := g2.other (by decide)
      obtain ⟨_, g4, -⟩ := g3.tok
      obtain ⟨_, g5, -⟩ := g4.tok
      exact g5.nil.elim
    exact g2.nil.elim
  | args m h ih =>
    intro _ ts' _ hr
    obtain ⟨_, g, rfl⟩ := hr.other (by decide)
    rcases g.cons with ⟨_, g2, rfl⟩ | ⟨_, g2, -⟩
    · obtain ⟨_, g3, e⟩ := g2.other (by decide)
      simp only [List.cons.injEq, and_true] at e
      subst e
      obtain ⟨_, g4, rfl⟩ := g3.tok
      rcases g4.cons with ⟨_, g5, rfl⟩ | ⟨_, g5, -⟩
      · exact .args _ (ih nofun g5)
      obtain ⟨_, g, -⟩ := g5.tok; exact g.nil.elim
    exact g2.nil.elim
  | argsTable ts h ih =>
    intro _ ts' _ hr
    obtain ⟨_, g, rfl⟩ := hr.other (by decide)
    rcases g.cons with ⟨_, g2, rfl⟩ | ⟨_, g2, -⟩
    · rcases g2.node with ⟨h0, -⟩ | ⟨_, g3, e⟩
      · exact absurd h0 (by decide)
      simp only [List.cons.injEq, and_true] at e
      subst e
      obtain ⟨_, g4, rfl⟩ := g3.tok
      rcases g4.app with ⟨_, g5, rfl⟩ | ⟨_, g5, -⟩
      · exact .argsTable _ (ih nofun g5)
      obtain ⟨_, g, -⟩ := g5.tok; exact g.nil.elim
    exact g2.nil.elim
  | argsStr =>
    intro _ ts' _ hr
    obtain ⟨_, g, -⟩ := hr.other (by decide)
    obtain ⟨_, g, -⟩ := g.tok; exact g.nil.elim
  | nameTailNil => intro _ _ _ hr; exact hr.nil.elim
  | nameTailCons ts h _ => intro _ _ _ hr; exact (Wr.noNames (.nameTailCons ts h) hr).elim
  | paramsEmpty =>
    intro _ ts' _ hr
    obtain ⟨_, g, -⟩ := hr.other (by decide)
    obtain ⟨_, g, -⟩ := g.tok
    obtain ⟨_, g, -⟩ := g.tok; exact g.nil.elim
  | paramsNames ts h _ =>
    intro _ ts' _ hr
    obtain ⟨_, g, -⟩ := hr.other (by decide)
    obtain ⟨_, g, -⟩ := g.tok
    rcases g.cons with ⟨_, g, -⟩ | ⟨_, g, -⟩
    · obtain ⟨_, g, -⟩ := g.other (by decide)
      obtain ⟨_, g, -⟩ := g.name
      exact (Wr.noNames h g).elim
    obtain ⟨_, g, -⟩ := g.tok; exact g.nil.elim
  | paramsVararg =>
    intro _ ts' _ hr
    obtain ⟨_, g, -⟩ := hr.other (by decide)
    obtain ⟨_, g, -⟩ := g.tok
    rcases g.cons with ⟨_, g, -⟩ | ⟨_, g, -⟩
    · obtain ⟨_, g, -⟩ := g.other (by decide)
      exact g.nil.elim
    obtain ⟨_, g, -⟩ := g.tok
    obtain ⟨_, g, -⟩ := g.tok; exact g.nil.elim
  | paramsNamesVararg ts h _ =>
    intro _ ts' _ hr
    obtain ⟨_, g, -⟩ := hr.other (by decide)
    obtain ⟨_, g, -⟩ := g.tok
    rcases g.cons with ⟨_, g, -⟩ | ⟨_, g, -⟩
    · obtain ⟨_, g, -⟩ := g.other (by decide)
      obtain ⟨_, g, -⟩ := g.name
      rcases g.app with ⟨_, g, -⟩ | ⟨_, g, -⟩
      · exact (Wr.noNames h g).elim
      obtain ⟨_, g, -⟩ := g.tok; exact g.nil.elim
    obtain ⟨_, g, -⟩ := g.tok
    obtain ⟨_, g, -⟩ := g.tok; exact g.nil.elim
  | paramsNoComma ts hx h _ =>
    intro _ ts' _ hr
    obtain ⟨_, g, -⟩ := hr.other (by decide)
    obtain ⟨_, g, -⟩ := g.tok
    rcases g.cons with ⟨_, g, -⟩ | ⟨_, g, -⟩
    · obtain ⟨_, g, -⟩ := g.other (by decide)
      obtain ⟨_, g, -⟩ := g.name
      exact (Wr.noNames h g).elim
    obtain ⟨_, g, -⟩ := g.tok
    obtain ⟨_, g, -⟩ := g.tok; exact g.nil.elim
  | block ts h ih =>
    intro _ ts' _ hr
    obtain ⟨_, g, rfl⟩ := hr.other (by decide)
    exact .block _ (ih nofun g)
  | stmtsNil => intro _ _ _ hr; exact hr.nil.elim
  | stmtsCons s ts hs ht hf ihs iht =>
    intro p ts' _ hr
    obtain ⟨b, a, hw, ok⟩ := hr
    rcases wrap_app (xs := [s]) (ys := ts) hw with ⟨xs', a', h1, rfl, rfl⟩ | ⟨ys', b', h1, rfl, rfl⟩
    · have hW : Wr K p [s] xs' := ⟨_, _, h1, ok_left ok⟩
      obtain ⟨s', rfl⟩ := hW.single
      refine .stmtsCons _ _ (ihs nofun hW) ht fun k hk => ⟨fun e => ?_, fun e => ?_⟩
      · subst e
        rcases endsCallable_wr h1 with e | ⟨rfl, e⟩
        · simp only [endsCallableL] at e
          rw [e]
          exact (hf _ hk).1 rfl
        · rcases ok.behind with h | h
          · exact absurd h e
          · exact absurd (by simpa using hk) h
      · exfalso
        subst e
        generalize hz : [PTree.node .returnStmt [.tok .returnKw]] = z at h1
        cases h1 with
        | here => simp at hz
        | down h1 =>
          simp only [List.cons.injEq, PTree.node.injEq, and_true] at hz
          obtain ⟨rfl, rfl⟩ := hz
          generalize hz : [PTree.tok .returnKw] = z at h1
          cases h1 with
          | down => simp at hz
          | tail h1 =>
            simp only [List.cons.injEq] at hz
            obtain ⟨rfl, rfl⟩ := hz
            cases h1
        | tail h1 => cases h1
    · have hb : yieldL [s] = yield s := by simp [yieldL]
      rw [hb] at ok
      refine .stmtsCons _ _ hs (iht nofun ⟨_, _, h1, ok_right ok⟩) fun k hk => ?_
      replace hk : (yieldL ys').head? = some k := hk
      obtain ⟨k0, y, hk0, e1, e2⟩ := yields h1
      cases b' with
      | cons z zs =>
        rw [e2] at hk
        refine hf k ?_
        rw [e1]
        simpa using hk
      | nil =>
        rw [e2] at hk
        simp only [List.nil_append, List.cons_append, List.head?_cons, Option.some.injEq] at hk
        subst hk
        have hold := hf k0 (by rw [e1]; simp)
        refine ⟨fun _ => ?_, fun e => absurd hk0 (hold.2 e)⟩
        cases hc : endsCallable s with
        | false => rfl
        | true =>
          exfalso
          obtain ⟨q, hq, e⟩ := ends_last hs (by simpa [endsCallableL] using hc)
          rw [hb] at e
          exact ok.before q (by simpa using e) hq
  | stmtsSemi s ts hs ht ihs iht =>
    intro _ ts' _ hr
    rcases hr.cons with ⟨_, g, rfl⟩ | ⟨_, g, rfl⟩
    · exact .stmtsSemi _ _ (ihs nofun g) ht
    obtain ⟨_, g1, rfl⟩ := g.tok
    exact .stmtsSemi _ _ hs (iht nofun g1)
  | ifStmt e b es he hb hes ihe ihb ihes =>
    intro _ ts' _ hr
    obtain ⟨_, g, rfl⟩ := hr.other (by decide)
    obtain ⟨_, g1, rfl⟩ := g.tok
    rcases g1.cons with ⟨_, g2, rfl⟩ | ⟨_, g2, rfl⟩
    · exact .ifStmt _ _ _ (ihe nofun g2) hb hes
    obtain ⟨_, g3, rfl⟩ := g2.tok
    rcases g3.cons with ⟨_, g4, rfl⟩ | ⟨_, g4, rfl⟩
    · exact .ifStmt _ _ _ he (ihb nofun g4) hes
    rcases g4.app with ⟨_, g5, rfl⟩ | ⟨_, g5, rfl⟩
    · exact .ifStmt _ _ _ he hb (ihes nofun g5)
    obtain ⟨_, g, -⟩ := g5.tok; exact g.nil.elim
  | elseNone => intro _ _ _ hr; exact hr.nil.elim
  | elseBranch b hb ih =>
    intro _ ts' _ hr
    obtain ⟨_, g, rfl⟩ := hr.other (by decide)
    obtain ⟨_, g1, rfl⟩ := g.tok
    obtain ⟨_, rfl⟩ := g1.single
    exact .elseBranch _ (ih nofun g1)
  | elseIf e b es he hb hes ihe ihb ihes =>
    intro _ ts' _ hr
    obtain ⟨_, g, rfl⟩ := hr.other (by decide)
    obtain ⟨_, g1, rfl⟩ := g.tok
    rcases g1.cons with ⟨_, g2, rfl⟩ | ⟨_, g2, rfl⟩
    · exact .elseIf _ _ _ (ihe nofun g2) hb hes
    obtain ⟨_, g3, rfl⟩ := g2.tok
    rcases g3.cons with ⟨_, g4, rfl⟩ | ⟨_, g4, rfl⟩
    · exact .elseIf _ _ _ he (ihb nofun g4) hes
    · exact .elseIf _ _ _ he hb (ihes nofun g4)
  | label =>
    intro _ ts' _ hr
    have hd : ∀ {p l}, Wr K p [PTree.node .labelDelim [.tok .doubleColon]] l → False := by
      intro p l g
      obtain ⟨_, g, -⟩ := g.other (by decide)
      obtain ⟨_, g, -⟩ := g.tok
      exact g.nil
    obtain ⟨_, g, -⟩ := hr.other (by decide)
    rcases g.cons with ⟨_, g, -⟩ | ⟨_, g, -⟩
    · exact (hd g).elim
    obtain ⟨_, g, -⟩ := g.name
    exact (hd g).elim
  | goto =>
    intro _ ts' _ hr
    obtain ⟨_, g, -⟩ := hr.other (by decide)
    obtain ⟨_, g, -⟩ := g.tok
    obtain ⟨_, g, -⟩ := Wr.nameRef g
    exact g.nil.elim
  | «break» =>
    intro _ ts' _ hr
    obtain ⟨_, g, -⟩ := hr.other (by decide)
    obtain ⟨_, g, -⟩ := g.tok; exact g.nil.elim
  | doStmt b hb ih =>
    intro _ ts' _ hr
    obtain ⟨_, g, rfl⟩ := hr.other (by decide)
    obtain ⟨_, g1, rfl⟩ := g.tok
    rcases g1.cons with ⟨_, g2, rfl⟩ | ⟨_, g2, rfl⟩
    · exact .doStmt _ (ih nofun g2)
    obtain ⟨_, g, -⟩ := g2.tok; exact g.nil.elim
  | «while» e b he hb ihe ihb =>
    intro _ ts' _ hr
    obtain ⟨_, g, rfl⟩ := hr.other (by decide)
    obtain ⟨_, g1, rfl⟩ := g.tok
    rcases g1.cons with ⟨_, g2, rfl⟩ | ⟨_, g2, rfl⟩
    · exact .while _ _ (ihe nofun g2) hb
    obtain ⟨_, g3, rfl⟩ := g2.tok
    rcases g3.cons with ⟨_, g4, rfl⟩ | ⟨_, g4, rfl⟩
    · exact .while _ _ he (ihb nofun g4)
    obtain ⟨_, g, -⟩ := g4.tok; exact g.nil.elim
  | «repeat» b e hb he ihb ihe =>
    intro _ ts' _ hr
    obtain ⟨_, g, rfl⟩ := hr.other (by decide)
    obtain ⟨_, g1, rfl⟩ := g.tok
    rcases g1.cons with ⟨_, g2, rfl⟩ | ⟨_, g2, rfl⟩
    · exact .repeat _ _ (ihb nofun g2) he
    obtain ⟨_, g3, rfl⟩ := g2.tok
    obtain ⟨_, rfl⟩ := g3.single
    exact .repeat _ _ hb (ihe nofun g3)
  | localFunction p b hp hb ihp ihb =>
    intro _ ts' _ hr
    obtain ⟨_, g, rfl⟩ := hr.other (by decide)
    obtain ⟨_, g1, rfl⟩ := g.tok
    obtain ⟨_, g2, rfl⟩ := g1.tok
    obtain ⟨_, g3, rfl⟩ := g2.name
    rcases g3.cons with ⟨_, g4, rfl⟩ | ⟨_, g4, rfl⟩
    · exact .localFunction _ _ (ihp nofun g4) hb
    rcases g4.cons with ⟨_, g5, rfl⟩ | ⟨_, g5, rfl⟩
    · exact .localFunction _ _ hp (ihb nofun g5)
    obtain ⟨_, g, -⟩ := g5.tok; exact g.nil.elim
  | localNames ts h _ =>
    intro _ ts' _ hr
    obtain ⟨_, g, -⟩ := hr.other (by decide)
    obtain ⟨_, g, -⟩ := g.tok
    obtain ⟨_, g, -⟩ := g.other (by decide)
    obtain ⟨_, g, -⟩ := g.name
    exact (Wr.noNames h g).elim
  | localAssign ts m h hm _ ihm =>
    intro _ ts' _ hr
    obtain ⟨_, g, rfl⟩ := hr.other (by decide)
    obtain ⟨_, g1, rfl⟩ := g.tok
    rcases g1.cons with ⟨_, g2, -⟩ | ⟨_, g2, rfl⟩
    · obtain ⟨_, g3, -⟩ := g2.other (by decide)
      obtain ⟨_, g4, -⟩ := g3.name
      exact (Wr.noNames h g4).elim
    obtain ⟨_, g3, rfl⟩ := g2.tok
    obtain ⟨_, rfl⟩ := g3.single
    exact .localAssign _ _ h (ihm nofun g3)
  | exprStmt m hm hs ih =>
    intro _ ts' _ hr
    obtain ⟨_, g, rfl⟩ := hr.other (by decide)
    obtain ⟨_, rfl⟩ := g.single
    exact .exprStmt _ (ih nofun g) (starts_wr g hs)
  | assign m m' hm hs hm' ih ih' =>
    intro _ ts' _ hr
    obtain ⟨_, g, rfl⟩ := hr.other (by decide)
    rcases g.cons with ⟨_, g2, rfl⟩ | ⟨_, g2, rfl⟩
    · exact .assign _ _ (ih nofun g2) (starts_wr g2 hs) hm'
    obtain ⟨_, g3, rfl⟩ := g2.tok
    obtain ⟨_, rfl⟩ := g3.single
    exact .assign _ _ hm hs (ih' nofun g3)
  | returnNone =>
    intro _ ts' _ hr
    obtain ⟨_, g, -⟩ := hr.other (by decide)
    obtain ⟨_, g, -⟩ := g.tok; exact g.nil.elim
  | «return» m hm ih =>
    intro _ ts' _ hr
    obtain ⟨_, g, rfl⟩ := hr.other (by decide)
    obtain ⟨_, g1, rfl⟩ := g.tok
    obtain ⟨_, rfl⟩ := g1.single
    exact .return _ (ih nofun g1)
  | function_ n p b hn hp hb ihn ihp ihb =>
    intro _ ts' _ hr
    obtain ⟨_, g, rfl⟩ := hr.other (by decide)
    obtain ⟨_, g1, rfl⟩ := g.tok
    rcases g1.cons with ⟨_, g2, rfl⟩ | ⟨_, g2, rfl⟩
    · exact .function_ _ _ _ (ihn nofun g2) hp hb
    rcases g2.cons with ⟨_, g3, rfl⟩ | ⟨_, g3, rfl⟩
    · exact .function_ _ _ _ hn (ihp nofun g3) hb
    rcases g3.cons with ⟨_, g4, rfl⟩ | ⟨_, g4, rfl⟩
    · exact .function_ _ _ _ hn hp (ihb nofun g4)
    obtain ⟨_, g, -⟩ := g4.tok; exact g.nil.elim
  | pathNil => intro _ _ _ hr; exact hr.nil.elim
  | pathCons ts h _ =>
    intro p _ hp hr
    obtain rfl := hp rfl
    exact (Wr.noPath (.pathCons ts h) hr).elim
  | plainName =>
    intro _ ts' _ hr
    obtain ⟨_, g, -⟩ := hr.other (by decide)
    obtain ⟨_, g, -⟩ := g.name; exact g.nil.elim
  | methodName ts h _ =>
    intro _ ts' _ hr
    obtain ⟨_, g, -⟩ := hr.other (by decide)
    obtain ⟨_, g, -⟩ := g.other (by decide)
    rcases g.cons with ⟨_, g, -⟩ | ⟨_, g, -⟩
    · obtain ⟨_, g, -⟩ := g.other (by decide)
      obtain ⟨_, g, -⟩ := Wr.nameRef g
      exact (Wr.noPath h g).elim
    obtain ⟨_, g, -⟩ := g.tok
    obtain ⟨_, g, -⟩ := g.name; exact g.nil.elim
  | staticName ts h _ =>
    intro _ ts' _ hr
    obtain ⟨_, g, -⟩ := hr.other (by decide)
    obtain ⟨_, g, -⟩ := g.other (by decide)
    rcases g.cons with ⟨_, g, -⟩ | ⟨_, g, -⟩
    · obtain ⟨_, g, -⟩ := g.other (by decide)
      obtain ⟨_, g, -⟩ := Wr.nameRef g
      rcases g.app with ⟨_, g, -⟩ | ⟨_, g, -⟩
      · exact (Wr.noPath h g).elim
      obtain ⟨_, g, -⟩ := g.tok; exact g.nil.elim
    obtain ⟨_, g, -⟩ := g.name; exact g.nil.elim
  | staticNoDot ts hx h _ =>
    intro _ ts' _ hr
    obtain ⟨_, g, -⟩ := hr.other (by decide)
    obtain ⟨_, g, -⟩ := g.other (by decide)
    rcases g.cons with ⟨_, g, -⟩ | ⟨_, g, -⟩
    · obtain ⟨_, g, -⟩ := g.other (by decide)
      obtain ⟨_, g, -⟩ := Wr.nameRef g
      exact (Wr.noPath h g).elim
    obtain ⟨_, g, -⟩ := g.name; exact g.nil.elim
  | forStmt c b hc hb ihc ihb =>
    intro _ ts' _ hr
    obtain ⟨_, g, rfl⟩ := hr.other (by decide)
    obtain ⟨_, g1, rfl⟩ := g.tok
    rcases g1.cons with ⟨_, g2, rfl⟩ | ⟨_, g2, rfl⟩
    · exact .forStmt _ _ (ihc nofun g2) hb
    obtain ⟨_, g3, rfl⟩ := g2.tok
    rcases g3.cons with ⟨_, g4, rfl⟩ | ⟨_, g4, rfl⟩
    · exact .forStmt _ _ hc (ihb nofun g4)
    obtain ⟨_, g, -⟩ := g4.tok; exact g.nil.elim
  | numericFor m hm ih =>
    intro _ ts' _ hr
    obtain ⟨_, g1, rfl⟩ := hr.other (by decide)
    rcases g1.cons with ⟨_, g2, rfl⟩ | ⟨_, g2, -⟩
    · obtain ⟨_, g3, e⟩ := g2.other (by decide)
      simp only [List.cons.injEq, and_true] at e
      subst e
      obtain ⟨_, g4, rfl⟩ := g3.name
      obtain ⟨_, g5, rfl⟩ := g4.tok
      obtain ⟨_, rfl⟩ := g5.single
      exact .numericFor _ (ih nofun g5)
    exact g2.nil.elim
  | genericFor ts e h he _ ihe =>
    intro _ ts' _ hr
    obtain ⟨_, g1, rfl⟩ := hr.other (by decide)
    rcases g1.cons with ⟨_, g2, rfl⟩ | ⟨_, g2, -⟩
    · obtain ⟨_, g3, e⟩ := g2.other (by decide)
      simp only [List.cons.injEq, and_true] at e
      subst e
      rcases g3.cons with ⟨_, g4, -⟩ | ⟨_, g4, rfl⟩
      · obtain ⟨_, g5, -⟩ := g4.other (by decide)
        obtain ⟨_, g6, -⟩ := g5.name
        exact (Wr.noNames h g6).elim
      obtain ⟨_, g5, rfl⟩ := g4.tok
      obtain ⟨_, rfl⟩ := g5.single
      exact .genericFor _ _ h (ihe nofun g5)
    exact g2.nil.elim
  | genericForList ts m hx h hm _ ihm =>
    intro _ ts' _ hr
    obtain ⟨_, g1, rfl⟩ := hr.other (by decide)
    rcases g1.cons with ⟨_, g2, rfl⟩ | ⟨_, g2, -⟩
    · obtain ⟨_, g3, e⟩ := g2.other (by decide)
      simp only [List.cons.injEq, and_true] at e
      subst e
      rcases g3.cons with ⟨_, g4, -⟩ | ⟨_, g4, rfl⟩
      · obtain ⟨_, g5, -⟩ := g4.other (by decide)
        obtain ⟨_, g6, -⟩ := g5.name
        exact (Wr.noNames h g6).elim
      obtain ⟨_, g5, rfl⟩ := g4.tok
      obtain ⟨_, rfl⟩ := g5.single
      exact .genericForList _ _ hx h (ihm nofun g5)
    exact g2.nil.elim


/-! ### the expressions of a derivation -/

/-- an expression ends in a token and starts with one of these -/
def Exp (cs : List PTree) : Prop := solidL cs = true ∧ ∃ k y, yieldL cs = k :: y ∧ k ∈ exprFirst

def AllExp (t : PTree) : Prop := ∀ K cs, K ∈ expressionKinds → Sub (.node K cs) t → Exp cs

theorem exp_head {x nt ts} (h : Deriv x nt ts) : nt = .expr → ∃ k y, yieldL ts = k :: y ∧ k ∈ exprFirst := by
  have start : ∀ {k cs t k2 y}, yield t = k2 :: y → k2 ∈ exprFirst → ∃ k' y', yieldL [PTree.node k (t :: cs)] = k' :: y' ∧ k' ∈ exprFirst := by
    intro k cs t k2 y e h
    exact ⟨k2, y ++ yieldL cs, by simp [yieldL, PTree.yield, e], h⟩
  have tok : ∀ {k}, yield (PTree.tok k) = k :: [] := by intro k; simp [PTree.yield]
  induction h <;> intro hn <;> cases hn
  case nameRef => exact start tok (by decide)
  case literal k hk => exact start tok (by simp [exprFirst, hk])
  case function => exact start tok (by decide)
  case table => exact start tok (by decide)
  case paren => exact start tok (by decide)
  case «prefix» op e hop _ _ _ => exact start tok (by simp [unaryOps] at hop; simp [exprFirst, hop]; rcases hop with rfl | rfl | rfl <;> simp)
  case call ih _ =>
    obtain ⟨k, y, e, hk⟩ := ih rfl
    exact start (by simpa [yieldL] using e) hk
  case method ih _ =>
    obtain ⟨k, y, e, hk⟩ := ih rfl
    exact start (by simpa [yieldL] using e) hk
  case indexE ih _ =>
    obtain ⟨k, y, e, hk⟩ := ih rfl
    exact start (by simpa [yieldL] using e) hk
  case dot ih =>
    obtain ⟨k, y, e, hk⟩ := ih rfl
    exact start (by simpa [yieldL] using e) hk
  case «infix» ih _ =>
    obtain ⟨k, y, e, hk⟩ := ih rfl
    exact start (by simpa [yieldL] using e) hk

theorem exp_of {x K cs} (h : Deriv x .expr [.node K cs]) : Exp cs := by
  refine ⟨?_, ?_⟩
  · have := deriv_solid h (by simp) (by simp) (by simp)
    simpa [solidL, solid] using this
  · obtain ⟨k, y, e, hk⟩ := exp_head h rfl
    exact ⟨k, y, by simpa [yieldL, PTree.yield] using e, hk⟩

/-- the expressions inside are derived as expressions -/
def AllDer (x : Dialect) (t : PTree) : Prop := ∀ K cs, K ∈ expressionKinds → Sub (.node K cs) t → Deriv x .expr [.node K cs]

theorem allder_tok {x} (k) : AllDer x (.tok k) := by
  intro K cs _ h; cases h

theorem allder_node {x k cs} (h : ∀ c ∈ cs, AllDer x c) (hk : k ∈ expressionKinds → Deriv x .expr [.node k cs]) : AllDer x (.node k cs) := by
  intro K ds hK hs
  cases hs with
  | refl => exact hk hK
  | node _ c _ hc hs => exact h c hc K ds hK hs

theorem deriv_der {x nt ts} (h : Deriv x nt ts) : ∀ t ∈ ts, AllDer x t := by
  have hn : AllDer x nameT := allder_node (by simp [allder_tok]) (fun h => absurd h (by decide))
  have hr : AllDer x nameRefT := allder_node (by simp [allder_tok]) (fun _ => .nameRef)
  have cls : ∀ {k cs}, Deriv x .expr [.node k cs] → (∀ c ∈ cs, AllDer x c) → AllDer x (.node k cs) :=
    fun h1 h2 => allder_node h2 fun _ => h1
  have tok := allder_tok (x := x)
  induction h with
  | literal k hk =>
    simp only [List.mem_cons, List.not_mem_nil, or_false, forall_eq]
    exact cls (.literal k hk) (by simp [tok])
  | function p b hp hb ihp ihb =>
    simp only [List.mem_cons, List.not_mem_nil, or_false, forall_eq] at ihp ihb ⊢
    exact cls (.function _ _ hp hb) (by simp [tok, ihp, ihb])
  | table ts h ih =>
    simp only [List.mem_cons, List.not_mem_nil, or_false, forall_eq]
    refine cls (.table _ h) ?_
    simp only [List.mem_cons, List.mem_append, List.not_mem_nil, or_false]
    rintro c (rfl | hc | rfl)
    · exact tok _
    · exact ih c hc
    · exact tok _
  | paren e h ih =>
    simp only [List.mem_cons, List.not_mem_nil, or_false, forall_eq] at ih ⊢
    exact cls (.paren _ h) (by simp [tok, ih])
  | call f a hf hc ha ihf iha =>
    simp only [List.mem_cons, List.not_mem_nil, or_false, forall_eq] at ihf iha ⊢
    exact cls (.call _ _ hf hc ha) (by simp [tok, ihf, iha])
  | method f a hf hc ha ihf iha =>
    simp only [List.mem_cons, List.not_mem_nil, or_false, forall_eq] at ihf iha ⊢
    exact cls (.method _ _ hf hc ha) (by simp [tok, ihf, iha, hr])
  | indexE f i hf hc hi ihf ihi =>
    simp only [List.mem_cons, List.not_mem_nil, or_false, forall_eq] at ihf ihi ⊢
    exact cls (.indexE _ _ hf hc hi) (by simp [tok, ihf, ihi])
  | dot f hf hc ihf =>
    simp only [List.mem_cons, List.not_mem_nil, or_false, forall_eq] at ihf ⊢
    exact cls (.dot _ hf hc) (by simp [tok, ihf])
  | «prefix» op e hop he hl ih =>
    simp only [List.mem_cons, List.not_mem_nil, or_false, forall_eq] at ih ⊢
    exact cls (.prefix _ _ hop he hl) (by simp [tok, ih])
  | «infix» op l r hop hl hr' h1 h2 ihl ihr =>
    simp only [List.mem_cons, List.not_mem_nil, or_false, forall_eq] at ihl ihr ⊢
    exact cls (.infix _ _ _ hop hl hr' h1 h2) (by simp [tok, ihl, ihr])
  | argsTable ts h ih =>
    simp only [List.mem_cons, List.not_mem_nil, or_false, forall_eq]
    refine allder_node ?_ (fun h => absurd h (by decide))
    simp only [List.mem_cons, List.not_mem_nil, or_false, forall_eq]
    refine cls (.table _ h) ?_
    simp only [List.mem_cons, List.mem_append, List.not_mem_nil, or_false]
    rintro c (rfl | hc | rfl)
    · exact tok _
    · exact ih c hc
    · exact tok _
  | _ =>
    simp_all only [List.mem_cons, List.mem_append, List.mem_singleton, List.not_mem_nil, or_false,
      forall_eq_or_imp, forall_eq, and_true, or_imp, forall_and, false_implies, implies_true]
    repeat' first
      | exact allder_tok _
      | assumption
      | refine ⟨?_, ?_⟩
      | refine allder_node ?_ (fun h => absurd h (by decide))
      | (simp_all only [List.mem_cons, List.mem_append, List.mem_singleton, List.not_mem_nil, or_false,
          forall_eq_or_imp, forall_eq, and_true, or_imp, forall_and, false_implies, implies_true])

theorem deriv_exp {x nt ts} (h : Deriv x nt ts) : ∀ t ∈ ts, AllExp t :=
  fun t ht K cs hK hs => exp_of (deriv_der h t ht K cs hK hs)

end Wrp
end Verif
