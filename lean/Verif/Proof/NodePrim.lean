import Verif.Spec.Qualifying
import Verif.Proof.NodePut

/-
Putting a name, an index, a call or parentheses in the place of an expression of a derivation.
-/
set_option linter.unusedSimpArgs false

namespace Verif
namespace Prm
open PTree Lua Put
open Spec (expressionKinds openPlaces operandPlaces callEnds primaryKinds)

/-- what can be put anywhere -/
structure Prime (E : PTree) (f : SyntaxKind) : Prop where
  kind : ∃ k ∈ primaryKinds, kindOf E = some k
  first : ∃ y, yield E = f :: y
  start : f = .ident ∨ f = .lParen

/-- what is before and behind allows it -/
structure Ok (K f : SyntaxKind) (b a : List SyntaxKind) : Prop where
  kind : K ∈ expressionKinds
  before : ∀ k, b.getLast? = some k → k ≠ .colon ∧ (f = .lParen → k ∉ callEnds)
  behind : K ∈ callableKinds ∨ a.head? ≠ some .lParen

variable {K f : SyntaxKind} {E : PTree}

abbrev PL (K : SyntaxKind) (E : PTree) := PutL [K] openPlaces E

/-- with what is needed to be allowed to -/
def Wr (K f : SyntaxKind) (E : PTree) (p : Bool) (ts ts' : List PTree) : Prop := ∃ s b a, PL K E p s ts ts' b a ∧ Ok K f b a

theorem ok_left {b a y} (h : Ok K f b (a ++ y)) : Ok K f b a := by
  refine ⟨h.kind, h.before, ?_⟩
  rcases h.behind with h | h
  · exact .inl h
  · refine .inr ?_
    cases a with
    | nil => simp
    | cons => simpa using h

theorem ok_right {b a y} (h : Ok K f (y ++ b) a) : Ok K f b a := by
  refine ⟨h.kind, fun k hk => h.before k ?_, h.behind⟩
  rw [List.getLast?_append, hk]; rfl

theorem Wr.nil {p l} (h : Wr K f E p [] l) : False := by
  obtain ⟨_, _, _, h, -⟩ := h; cases h

theorem Wr.tok {p k ts l} (h : Wr K f E p (.tok k :: ts) l) : ∃ ts', Wr K f E p ts ts' ∧ l = .tok k :: ts' := by
  obtain ⟨_, _, _, h, o⟩ := h
  cases h with
  | tail h => exact ⟨_, ⟨_, _, _, h, ok_right o⟩, rfl⟩

theorem put_mono {A V p s ts ts' b a} (h : PutL A V E p s ts ts' b a) : PutL A V E true s ts ts' b a := by
  induction h with
  | here h => exact .here h
  | down h _ => exact .down h
  | tail _ ih => exact .tail ih

theorem wr_in {k s cs cs' b a} (h : PL K E (decide (k ∈ openPlaces) || (decide (k = .multivalExpr) && s))
    (decide (k ≠ .exprStmt ∧ k ≠ .assignStmt)) cs cs' b a) (o : Ok K f b a) : Wr K f E (decide (k ∈ openPlaces)) cs cs' := by
  by_cases hk : k ∈ openPlaces
  · simp only [hk, decide_true]
    exact ⟨_, _, _, put_mono h, o⟩
  · have h2 : k ≠ .multivalExpr := by rintro rfl; exact hk (by decide)
    simp only [hk, h2, decide_false, Bool.false_or, Bool.false_and] at h
    simp only [hk, decide_false]
    exact ⟨_, _, _, h, o⟩

theorem Wr.node {p k cs l} (h : Wr K f E p [.node k cs] l) :
    (p = true ∧ k ∈ [K] ∧ l = [E]) ∨ ∃ cs', Wr K f E (decide (k ∈ openPlaces)) cs cs' ∧ l = [.node k cs'] := by
  obtain ⟨_, _, _, h, o⟩ := h
  cases h with
  | here h => exact .inl ⟨rfl, h, rfl⟩
  | down h => exact .inr ⟨_, wr_in h (ok_left o), rfl⟩
  | tail h => cases h

theorem Wr.other {p k cs l} (h : Wr K f E p [.node k cs] l) (hk : k ∉ expressionKinds) :
    ∃ cs', Wr K f E (decide (k ∈ openPlaces)) cs cs' ∧ l = [.node k cs'] := by
  have hK : K ∈ expressionKinds := by obtain ⟨_, _, _, -, o⟩ := h; exact o.kind
  rcases h.node with h | h
  · exact absurd h.2.1 (by rw [List.mem_singleton]; rintro rfl; exact hk hK)
  · exact h

theorem Wr.cons {p t ts l} (h : Wr K f E p (t :: ts) l) :
    (∃ t', Wr K f E p [t] [t'] ∧ l = t' :: ts) ∨ ∃ ts', Wr K f E p ts ts' ∧ l = t :: ts' := by
  obtain ⟨_, _, _, h, o⟩ := h
  cases h with
  | here h1 => exact .inl ⟨_, ⟨_, _, _, .here (s := true) (ts := []) h1, ⟨o.kind, by simp, .inr (by simp [yieldL])⟩⟩, rfl⟩
  | down h => exact .inl ⟨_, ⟨_, _, _, .down (ts := []) h, by simpa [yieldL] using ok_left o⟩, rfl⟩
  | tail h => exact .inr ⟨_, ⟨_, _, _, h, ok_right o⟩, rfl⟩

theorem Wr.app {p xs ys l} (h : Wr K f E p (xs ++ ys) l) :
    (∃ xs', Wr K f E p xs xs' ∧ l = xs' ++ ys) ∨ ∃ ys', Wr K f E p ys ys' ∧ l = xs ++ ys' := by
  obtain ⟨_, _, _, h, o⟩ := h
  rcases put_app h with ⟨_, _, h1, rfl, rfl⟩ | ⟨_, _, _, h1, rfl, rfl⟩
  · exact .inl ⟨_, ⟨_, _, _, h1, ok_left o⟩, rfl⟩
  · exact .inr ⟨_, ⟨_, _, _, h1, ok_right o⟩, rfl⟩

theorem Wr.single {p t l} (h : Wr K f E p [t] l) : ∃ t', l = [t'] := by
  rcases h.cons with ⟨t', -, rfl⟩ | ⟨_, h, -⟩
  · exact ⟨_, rfl⟩
  · exact h.nil.elim

theorem Wr.name {p ts l} (h : Wr K f E p (nameT :: ts) l) : ∃ ts', Wr K f E p ts ts' ∧ l = nameT :: ts' := by
  rcases h.cons with ⟨t', h1, rfl⟩ | h
  · obtain ⟨_, h2, -⟩ := h1.other (by decide)
    obtain ⟨_, h3, -⟩ := h2.tok
    exact h3.nil.elim
  · exact h

theorem Wr.nameRef {ts l} (h : Wr K f E false (nameRefT :: ts) l) : ∃ ts', Wr K f E false ts ts' ∧ l = nameRefT :: ts' := by
  rcases h.cons with ⟨t', h1, rfl⟩ | h
  · rcases h1.node with ⟨h, -⟩ | ⟨_, h2, -⟩
    · cases h
    · obtain ⟨_, h3, -⟩ := h2.tok
      exact h3.nil.elim
  · exact h

/-- the name of a method is not put in parentheses -/
theorem Wr.methodName {p ts l} (h : Wr K f E p (.tok .colon :: nameRefT :: ts) l) :
    ∃ ts', Wr K f E p ts ts' ∧ l = .tok .colon :: nameRefT :: ts' := by
  obtain ⟨s, b, a, h, o⟩ := h
  cases h with
  | tail h =>
    cases h with
    | here => exact absurd rfl (o.before .colon (by simp [PTree.yield])).1
    | down h => cases h with | tail h => cases h
    | tail h => exact ⟨_, ⟨_, _, _, h, ok_right (ok_right o)⟩, rfl⟩

theorem Wr.noNames {p x ts l} (hd : Deriv x .nameTail ts) (h : Wr K f E p ts l) : False := by
  generalize hn : NT.nameTail = nt at hd
  induction hd generalizing l <;> cases hn
  · exact h.nil
  · rename_i ih
    obtain ⟨_, h1, -⟩ := h.tok
    obtain ⟨_, h2, -⟩ := h1.name
    exact ih h2 rfl

theorem Wr.noPath {x ts l} (hd : Deriv x .pathTail ts) (h : Wr K f E false ts l) : False := by
  generalize hn : NT.pathTail = nt at hd
  induction hd generalizing l <;> cases hn
  · exact h.nil
  · rename_i ih
    obtain ⟨_, h1, -⟩ := h.tok
    obtain ⟨_, h2, -⟩ := h1.nameRef
    exact ih h2 rfl

theorem kind_cases {p t t'} (h : Wr K f E p [t] [t']) : kindOf t' = kindOf t ∨ t' = E := by
  obtain ⟨_, _, _, h, -⟩ := h
  cases h with
  | here => exact .inr rfl
  | down => exact .inl rfl
  | tail h => cases h

theorem Prime.callable (hE : Prime E f) : Lua.callable E := by
  obtain ⟨k, hk, e⟩ := hE.kind
  have : ∀ k ∈ primaryKinds, k ≠ .infixExpr ∧ k ≠ .prefixExpr ∧ k ≠ .literal := by decide
  simp [Lua.callable, indexable, e, this k hk]

theorem Prime.node (hE : Prime E f) : ∃ k cs, k ∈ primaryKinds ∧ E = .node k cs := by
  obtain ⟨k, hk, e⟩ := hE.kind
  cases E <;> simp [kindOf] at e
  exact ⟨_, _, by rw [e]; exact hk, rfl⟩

theorem Prime.leftOps (hE : Prime E f) : leftOps E = [] := by
  obtain ⟨k, cs, hk, rfl⟩ := hE.node
  have : k ≠ .infixExpr := by rintro rfl; exact absurd hk (by decide)
  unfold Lua.leftOps
  split
  · rename_i e; simp only [PTree.node.injEq] at e; exact absurd e.1 this
  · rfl

theorem Prime.rightLevels (hE : Prime E f) : rightLevels E = [] := by
  obtain ⟨k, cs, hk, rfl⟩ := hE.node
  have h1 : k ≠ .infixExpr := by rintro rfl; exact absurd hk (by decide)
  have h2 : k ≠ .prefixExpr := by rintro rfl; exact absurd hk (by decide)
  unfold Lua.rightLevels
  split
  · rename_i e; simp only [PTree.node.injEq] at e; exact absurd e.1 h1
  · rename_i e; simp only [PTree.node.injEq] at e; exact absurd e.1 h2
  · rfl

theorem Prime.ends (hE : Prime E f) : endsCallable E = true := by
  obtain ⟨k, cs, hk, rfl⟩ := hE.node
  have : ∀ k ∈ primaryKinds, k ∉ endsInExpr ∧ k ∈ callableKinds := by decide
  simp [endsCallable, this k hk]

theorem callable_wr (hE : Prime E f) {p t t'} (h : Wr K f E p [t] [t']) (hc : callable t) : callable t' := by
  rcases kind_cases h with e | rfl
  · simpa [callable, indexable, e] using hc
  · exact hE.callable

theorem indexable_wr (hE : Prime E f) {p t t'} (h : Wr K f E p [t] [t']) (hc : indexable t) : indexable t' := by
  rcases kind_cases h with e | rfl
  · simpa [indexable, e] using hc
  · exact hE.callable.1

theorem leftOps_wr (hE : Prime E f) {p t t'} (h : Wr K f E p [t] [t']) : ∀ q ∈ leftOps t', q ∈ leftOps t := by
  have key : ∀ n, ∀ t, sizeOf t < n → ∀ {p t'}, Wr K f E p [t] [t'] → ∀ q ∈ leftOps t', q ∈ leftOps t := by
    intro n
    induction n with
    | zero => intro t h; omega
    | succ n ih =>
      intro t hn p t' h0 q hq
      cases t with
      | tok => obtain ⟨_, h, -⟩ := h0.tok; exact h.nil.elim
      | err => obtain ⟨_, _, _, h, -⟩ := h0; cases h with | tail h => cases h
      | errNode => obtain ⟨_, _, _, h, -⟩ := h0; cases h with | tail h => cases h
      | node k cs =>
        rcases h0.node with ⟨-, -, e⟩ | ⟨cs', h1, e⟩
        · simp only [List.cons.injEq, and_true] at e; subst e; rw [hE.leftOps] at hq; simp at hq
        · simp only [List.cons.injEq, and_true] at e; subst e
          unfold leftOps at hq
          split at hq
          · rename_i l op rest e
            simp only [PTree.node.injEq] at e
            obtain ⟨rfl, rfl⟩ := e
            cases cs with
            | nil => exact h1.nil.elim
            | cons c cs =>
              rcases h1.cons with ⟨c', h2, e⟩ | ⟨_, h2, e⟩
              · simp only [List.cons.injEq] at e
                obtain ⟨rfl, rfl⟩ := e
                simp only [leftOps, List.mem_cons] at hq ⊢
                rcases hq with rfl | hq
                · exact .inl rfl
                · exact .inr (ih c (by simp at hn; omega) h2 q hq)
              · simp only [List.cons.injEq] at e
                obtain ⟨rfl, rfl⟩ := e
                cases cs with
                | nil => exact h2.nil.elim
                | cons c2 cs =>
                  cases c2 with
                  | tok =>
                    obtain ⟨_, h, e⟩ := h2.tok
                    simp only [List.cons.injEq, PTree.tok.injEq] at e
                    obtain ⟨rfl, rfl⟩ := e
                    simpa [leftOps] using hq
                  | err | errNode =>
                    obtain ⟨_, _, _, h, -⟩ := h2
                    cases h
                  | node k2 cs2 =>
                    exfalso
                    obtain ⟨_, _, _, h, -⟩ := h2
                    cases h
                    exact absurd hE.kind (by simp [kindOf])
          · simp at hq
  exact key _ t (Nat.lt_succ_self _) h

theorem rightLevels_wr (hE : Prime E f) {p t t'} (h : Wr K f E p [t] [t']) : ∀ q ∈ rightLevels t', q ∈ rightLevels t := by
  have key : ∀ n, ∀ t, sizeOf t < n → ∀ {p t'}, Wr K f E p [t] [t'] → ∀ q ∈ rightLevels t', q ∈ rightLevels t := by
    intro n
    induction n with
    | zero => intro t h; omega
    | succ n ih =>
      intro t hn p t' h0 q hq
      cases t with
      | tok => obtain ⟨_, h, -⟩ := h0.tok; exact h.nil.elim
      | err => obtain ⟨_, _, _, h, -⟩ := h0; cases h with | tail h => cases h
      | errNode => obtain ⟨_, _, _, h, -⟩ := h0; cases h with | tail h => cases h
      | node k cs =>
        rcases h0.node with ⟨-, -, e⟩ | ⟨cs', h1, e⟩
        · simp only [List.cons.injEq, and_true] at e; subst e; rw [hE.rightLevels] at hq; simp at hq
        · simp only [List.cons.injEq, and_true] at e; subst e
          have notok : ∀ {p c} {k}, Wr K f E p [c] [.tok k] → False := by
            intro p c k h
            obtain ⟨_, _, _, h, -⟩ := h
            generalize hz : [PTree.tok k] = z at h
            cases h with
            | here =>
              obtain ⟨_, _, -, e⟩ := hE.node
              rw [e] at hz; simp at hz
            | down => simp at hz
            | tail g => exact nomatch g
          unfold rightLevels at hq
          split at hq
          · rename_i l op r e
            simp only [PTree.node.injEq] at e
            obtain ⟨rfl, rfl⟩ := e
            cases cs with
            | nil => exact h1.nil.elim
            | cons c cs =>
              rcases h1.cons with ⟨c', h2, e⟩ | ⟨_, h2, e⟩
              · simp only [List.cons.injEq] at e
                obtain ⟨rfl, rfl⟩ := e
                simpa [rightLevels] using hq
              · simp only [List.cons.injEq] at e
                obtain ⟨rfl, rfl⟩ := e
                cases cs with
                | nil => exact h2.nil.elim
                | cons c2 cs =>
                  rcases h2.cons with ⟨c2', h3, e⟩ | ⟨_, h3, e⟩
                  · simp only [List.cons.injEq] at e
                    obtain ⟨rfl, rfl⟩ := e
                    exact (notok h3).elim
                  · simp only [List.cons.injEq] at e
                    obtain ⟨rfl, rfl⟩ := e
                    cases cs with
                    | nil => exact h3.nil.elim
                    | cons c3 cs =>
                      rcases h3.cons with ⟨c3', h4, e⟩ | ⟨_, h4, e⟩
                      · simp only [List.cons.injEq] at e
                        obtain ⟨rfl, rfl⟩ := e
                        simp only [rightLevels, List.mem_cons] at hq ⊢
                        rcases hq with rfl | hq
                        · exact .inl rfl
                        · exact .inr (ih c3 (by simp at hn; omega) h4 q hq)
                      · simp only [List.cons.injEq] at e
                        obtain ⟨rfl, rfl⟩ := e
                        cases cs with
                        | nil => exact h4.nil.elim
                        | cons c4 cs =>
                          rcases h4.cons with ⟨c4', h5, e⟩ | ⟨_, h5, e⟩ <;> simp at e
          · rename_i op e2 e
            simp only [PTree.node.injEq] at e
            obtain ⟨rfl, rfl⟩ := e
            cases cs with
            | nil => exact h1.nil.elim
            | cons c cs =>
              rcases h1.cons with ⟨c', h2, e⟩ | ⟨_, h2, e⟩
              · simp only [List.cons.injEq] at e
                obtain ⟨rfl, rfl⟩ := e
                exact (notok h2).elim
              · simp only [List.cons.injEq] at e
                obtain ⟨rfl, rfl⟩ := e
                cases cs with
                | nil => exact h2.nil.elim
                | cons c2 cs =>
                  rcases h2.cons with ⟨c2', h3, e⟩ | ⟨_, h3, e⟩
                  · simp only [List.cons.injEq] at e
                    obtain ⟨rfl, rfl⟩ := e
                    simp only [rightLevels, List.mem_cons] at hq ⊢
                    rcases hq with rfl | hq
                    · exact .inl rfl
                    · exact .inr (ih c2 (by simp at hn; omega) h3 q hq)
                  · simp only [List.cons.injEq] at e
                    obtain ⟨rfl, rfl⟩ := e
                    cases cs with
                    | nil => exact h3.nil.elim
                    | cons c3 cs =>
                      rcases h3.cons with ⟨c3', h4, e⟩ | ⟨_, h4, e⟩ <;> simp at e
          · simp at hq
  exact key _ t (Nat.lt_succ_self _) h

theorem endsCallable_wr (hE : Prime E f) {p s ts ts' b a} (h : PL K E p s ts ts' b a) :
    endsCallableL ts' = endsCallableL ts ∨ (a = [] ∧ K ∉ callableKinds) := by
  induction h with
  | @here s K' cs ts hK =>
    rw [List.mem_singleton] at hK
    subst hK
    cases ts with
    | cons t ts => exact .inl (by simp [endsCallableL])
    | nil =>
      by_cases hc : K' ∈ callableKinds
      · left
        have : K' ∉ endsInExpr := by
          have : ∀ k ∈ callableKinds, k ∉ endsInExpr := by decide
          exact this K' hc
        simp only [endsCallableL, hE.ends]
        simp only [endsCallable, this, if_false, hc, decide_true]
      · exact .inr ⟨by simp [yieldL], hc⟩
  | @down p s k cs cs' ts b a h ih =>
    cases ts with
    | cons t ts => exact .inl (by simp [endsCallableL])
    | nil =>
      rcases ih with ih | ⟨rfl, ih⟩
      · exact .inl (by simp only [endsCallableL, endsCallable, ih])
      · exact .inr ⟨by simp [yieldL], ih⟩
  | @tail p s t ts ts' b a h ih =>
    rcases ih with ih | ih
    · left
      cases ts with
      | nil => cases h
      | cons t2 ts2 =>
        cases ts' with
        | nil => cases h
        | cons t3 ts3 => simpa [endsCallableL] using ih
    · exact .inr ih

theorem starts_wr (hE : Prime E f) {p m m'} (h : Wr K f E p [m] [m']) (hs : startsStmt m) : startsStmt m' := by
  obtain ⟨s, b, a, h, -⟩ := h
  obtain ⟨y, e1, e2⟩ := put_yields h
  simp only [yieldL, List.append_nil] at e1 e2
  cases b with
  | nil =>
    obtain ⟨z, ez⟩ := hE.first
    rw [ez] at e2
    rcases hE.start with rfl | rfl
    · exact .inl (by rw [e2]; simp)
    · exact .inr (by rw [e2]; simp)
  | cons z zs => simpa [startsStmt, e1, e2] using hs

theorem first_expr {p s ts ts' b a} (hK : K ∈ expressionKinds) (h : PL K E p s ts ts' b a) (hts : ∀ t ∈ ts, Wrp.AllExp t) :
    ∃ k0 y, k0 ∈ exprFirst ∧ yieldL ts = b ++ k0 :: y := by
  induction h with
  | @here s K' cs ts h =>
    rw [List.mem_singleton] at h
    subst h
    obtain ⟨-, k, y, e, hk⟩ := hts (.node K' cs) (by simp) K' cs hK (.refl _)
    exact ⟨k, y ++ yieldL ts, hk, by simp [yieldL, PTree.yield, e]⟩
  | @down p s k cs cs' ts b a h ih =>
    obtain ⟨k0, y, hk, e⟩ := ih fun t ht K' cs' hK' hs => hts (.node k cs) (by simp) K' cs' hK' (.node _ _ _ _ ht hs)
    exact ⟨k0, y ++ yieldL ts, hk, by simp [yieldL, PTree.yield, e]⟩
  | @tail p s t ts ts' b a h ih =>
    obtain ⟨k0, y, hk, e⟩ := ih fun t ht => hts t (by simp [ht])
    exact ⟨k0, y, hk, by simp [yieldL, e]⟩

/-- **The derivation** with an expression in parentheses. -/
theorem deriv_prim (hE : Prime E f) {x nt ts} (hD : Deriv x .expr [E]) (h : Deriv x nt ts) : ∀ {p ts'}, (nt = .pathTail → p = false) → Wr K f E p ts ts' → Deriv x nt ts' := by
  have ex : ∀ {p k cs l}, Deriv x .expr [.node k cs] → Wr K f E p [.node k cs] l →
      (∀ {cs'}, Wr K f E (decide (k ∈ openPlaces)) cs cs' → Deriv x .expr [.node k cs']) → Deriv x .expr l := by
    intro p k cs l h1 h2 h3
    rcases h2.node with ⟨-, -, rfl⟩ | ⟨cs', g, rfl⟩
    · exact hD
    · exact h3 g
  induction h with
  | nameRef =>
    intro p ts' _ hr
    exact ex .nameRef hr fun g => by obtain ⟨_, g, -⟩ := g.tok; exact g.nil.elim
  | literal k hk =>
    intro p ts' _ hr
    exact ex (.literal k hk) hr fun g => by obtain ⟨_, g, -⟩ := g.tok; exact g.nil.elim
  | function p b hp hb ihp ihb =>
    intro _ ts' _ hr
    refine ex (.function p b hp hb) hr fun g => ?_
    obtain ⟨_, g1, rfl⟩ := g.tok
    rcases g1.cons with ⟨_, g2, rfl⟩ | ⟨_, g2, rfl⟩
    · exact .function _ _ (ihp nofun g2) hb
    rcases g2.cons with ⟨_, g3, rfl⟩ | ⟨_, g3, rfl⟩
    · exact .function _ _ hp (ihb nofun g3)
    obtain ⟨_, g, -⟩ := g3.tok; exact g.nil.elim
  | table ts h ih =>
    intro _ ts' _ hr
    refine ex (.table ts h) hr fun g => ?_
    obtain ⟨_, g1, rfl⟩ := g.tok
    rcases g1.app with ⟨_, g2, rfl⟩ | ⟨_, g2, rfl⟩
    · exact .table _ (ih nofun g2)
    obtain ⟨_, g, -⟩ := g2.tok; exact g.nil.elim
  | paren e h ih =>
    intro _ ts' _ hr
    refine ex (.paren e h) hr fun g => ?_
    obtain ⟨_, g1, rfl⟩ := g.tok
    rcases g1.cons with ⟨_, g2, rfl⟩ | ⟨_, g2, rfl⟩
    · exact .paren _ (ih nofun g2)
    obtain ⟨_, g, -⟩ := g2.tok; exact g.nil.elim
  | call f a hf hc ha ihf iha =>
    intro _ ts' _ hr
    refine ex (.call f a hf hc ha) hr fun g => ?_
    rcases g.cons with ⟨_, g2, rfl⟩ | ⟨_, g2, rfl⟩
    · exact .call _ _ (ihf nofun g2) (callable_wr hE g2 hc) ha
    rcases g2.cons with ⟨_, g3, rfl⟩ | ⟨_, g3, rfl⟩
    · exact .call _ _ hf hc (iha nofun g3)
    exact g3.nil.elim
  | method f a hf hc ha ihf iha =>
    intro _ ts' _ hr
    refine ex (.method f a hf hc ha) hr fun g => ?_
    rcases g.cons with ⟨_, g2, rfl⟩ | ⟨_, g2, rfl⟩
    · exact .method _ _ (ihf nofun g2) (callable_wr hE g2 hc) ha
    obtain ⟨_, g4, rfl⟩ := g2.methodName
    rcases g4.cons with ⟨_, g5, rfl⟩ | ⟨_, g5, rfl⟩
    · exact .method _ _ hf hc (iha nofun g5)
    exact g5.nil.elim
  | indexE f i hf hc hi ihf ihi =>
    intro _ ts' _ hr
    refine ex (.indexE f i hf hc hi) hr fun g => ?_
    rcases g.cons with ⟨_, g2, rfl⟩ | ⟨_, g2, rfl⟩
    · exact .indexE _ _ (ihf nofun g2) (indexable_wr hE g2 hc) hi
    rcases g2.cons with ⟨_, g3, rfl⟩ | ⟨_, g3, rfl⟩
    · exact .indexE _ _ hf hc (ihi nofun g3)
    exact g3.nil.elim
  | dot f hf hc ihf =>
    intro _ ts' _ hr
    refine ex (.dot f hf hc) hr fun g => ?_
    rcases g.cons with ⟨_, g2, rfl⟩ | ⟨_, g2, rfl⟩
    · exact .dot _ (ihf nofun g2) (indexable_wr hE g2 hc)
    obtain ⟨_, g3, -⟩ := g2.tok
    obtain ⟨_, g, -⟩ := g3.tok; exact g.nil.elim
  | «prefix» op e hop he hl ih =>
    intro _ ts' _ hr
    refine ex (.prefix op e hop he hl) hr fun g => ?_
    obtain ⟨_, g1, rfl⟩ := g.tok
    rcases g1.cons with ⟨_, g2, rfl⟩ | ⟨_, g2, rfl⟩
    · exact .prefix _ _ hop (ih nofun g2) fun q hq => hl q (leftOps_wr hE g2 q hq)
    exact g2.nil.elim
  | «infix» op l r hop hl hr' h1 h2 ihl ihr =>
    intro _ ts' _ hr
    refine ex (.infix op l r hop hl hr' h1 h2) hr fun g => ?_
    rcases g.cons with ⟨_, g2, rfl⟩ | ⟨_, g2, rfl⟩
    · exact .infix _ _ _ hop (ihl nofun g2) hr' (fun q hq => h1 q (rightLevels_wr hE g2 q hq)) h2
    obtain ⟨_, g3, rfl⟩ := g2.tok
    rcases g3.cons with ⟨_, g4, rfl⟩ | ⟨_, g4, rfl⟩
    · exact .infix _ _ _ hop hl (ihr nofun g4) h1 fun q hq => h2 q (leftOps_wr hE g4 q hq)
    exact g4.nil.elim
  | tailNil => intro _ _ _ hr; exact hr.nil.elim
  | tailCons e ts he ht ihe iht =>
    intro _ ts' _ hr
    obtain ⟨_, g1, rfl⟩ := hr.tok
    rcases g1.cons with ⟨_, g2, rfl⟩ | ⟨_, g2, rfl⟩
    · exact .tailCons _ _ (ihe nofun g2) ht
    · exact .tailCons _ _ he (iht nofun g2)
  | multival e ts he ht ihe iht =>
    intro _ ts' _ hr
    obtain ⟨_, g1, rfl⟩ := hr.other (by decide)
    rcases g1.cons with ⟨_, g2, rfl⟩ | ⟨_, g2, rfl⟩
    · exact .multival _ _ (ihe nofun g2) ht
    · exact .multival _ _ he (iht nofun g2)
  | itemsNil => intro _ _ _ hr; exact hr.nil.elim
  | itemsLast c h ih =>
    intro _ ts' _ hr
    obtain ⟨_, rfl⟩ := hr.single
    exact .itemsLast _ (ih nofun hr)
  | itemsCons c sep ts h hs ht ih iht =>
    intro _ ts' _ hr
    rcases hr.cons with ⟨_, g2, rfl⟩ | ⟨_, g2, rfl⟩
    · exact .itemsCons _ _ _ (ih nofun g2) hs ht
    rcases g2.cons with ⟨_, g3, rfl⟩ | ⟨_, g3, rfl⟩
    · obtain ⟨_, g4, -⟩ := g3.other (by decide)
      obtain ⟨_, g, -⟩ := g4.tok; exact g.nil.elim
    · exact .itemsCons _ _ _ h hs (iht nofun g3)
  | namedField e h ih =>
    intro _ ts' _ hr
    obtain ⟨_, g1, rfl⟩ := hr.other (by decide)
    rcases g1.cons with ⟨_, g2, rfl⟩ | ⟨_, g2, -⟩
    · obtain ⟨_, g3, e⟩ := g2.other (by decide)
      simp only [List.cons.injEq, and_true] at e
      subst e
      rcases g3.cons with ⟨_, g4, rfl⟩ | ⟨_, g4, rfl⟩
      · obtain ⟨_, g5, -⟩ := g4.other (by decide)
        obtain ⟨_, g, -⟩ := g5.name; exact g.nil.elim
      obtain ⟨_, g5, rfl⟩ := g4.tok
      obtain ⟨_, rfl⟩ := g5.single
      exact .namedField _ (ih nofun g5)
    exact g2.nil.elim
  | indexedField i e hi h ihi ih =>
    intro _ ts' _ hr
    obtain ⟨_, g1, rfl⟩ := hr.other (by decide)
    rcases g1.cons with ⟨_, g2, rfl⟩ | ⟨_, g2, -⟩
    · obtain ⟨_, g3, e⟩ := g2.other (by decide)
      simp only [List.cons.injEq, and_true] at e
      subst e
      rcases g3.cons with ⟨_, g4, rfl⟩ | ⟨_, g4, rfl⟩
      · obtain ⟨_, g5, e⟩ := g4.other (by decide)
        simp only [List.cons.injEq, and_true] at e
        subst e
        obtain ⟨_, rfl⟩ := g5.single
        exact .indexedField _ _ (ihi nofun g5) h
      obtain ⟨_, g5, rfl⟩ := g4.tok
      obtain ⟨_, rfl⟩ := g5.single
      exact .indexedField _ _ hi (ih nofun g5)
    exact g2.nil.elim
  | positional e h ih =>
    intro _ ts' _ hr
    obtain ⟨_, g1, rfl⟩ := hr.other (by decide)
    rcases g1.cons with ⟨_, g2, rfl⟩ | ⟨_, g2, -⟩
    · obtain ⟨_, g3, e⟩ := g2.other (by decide)
      simp only [List.cons.injEq, and_true] at e
      subst e
      obtain ⟨_, rfl⟩ := g3.single
      exact .positional _ (ih nofun g3)
    exact g2.nil.elim
  | index e h ih =>
    intro _ ts' _ hr
    obtain ⟨_, g, rfl⟩ := hr.other (by decide)
    obtain ⟨_, g1, rfl⟩ := g.tok
    rcases g1.cons with ⟨_, g2, rfl⟩ | ⟨_, g2, rfl⟩
    · exact .index _ (ih nofun g2)
    obtain ⟨_, g, -⟩ := g2.tok; exact g.nil.elim
  | argsEmpty =>
    intro _ ts' _ hr
    obtain ⟨_, g, -⟩ := hr.other (by decide)
    rcases g.cons with ⟨_, g2, -⟩ | ⟨_, g2, -⟩
    · obtain ⟨_, g3, -⟩ := g2.other (by decide)
      obtain ⟨_, g4, -⟩ := g3.tok
      obtain ⟨_, g5, -⟩ := g4.tok
      exact g5.nil.elim
    exact g2.nil.elim
  | args m h ih =>
    intro _ ts' _ hr
    obtain ⟨_, g, rfl⟩ := hr.other (by decide)
    rcases g.cons with ⟨_, g2, rfl⟩ | ⟨_, g2, -⟩
    · obtain ⟨_, g3, e⟩ := g2.other (by decide)
      simp only [List.cons.injEq, and_true] at e
      subst e
      obtain ⟨_, g4, rfl⟩ := g3.tok
      rcases g4.cons with ⟨_, g5, rfl⟩ | ⟨_, g5, -⟩
      · exact .args _ (ih nofun g5)
      obtain ⟨_, g, -⟩ := g5.tok; exact g.nil.elim
    exact g2.nil.elim
  | argsTable ts h ih =>
    intro _ ts' _ hr
    obtain ⟨_, g, rfl⟩ := hr.other (by decide)
    rcases g.cons with ⟨_, g2, rfl⟩ | ⟨_, g2, -⟩
    · rcases g2.node with ⟨h0, -⟩ | ⟨_, g3, e⟩
      · exact absurd h0 (by decide)
      simp only [List.cons.injEq, and_true] at e
      subst e
      obtain ⟨_, g4, rfl⟩ := g3.tok
      rcases g4.app with ⟨_, g5, rfl⟩ | ⟨_, g5, -⟩
      · exact .argsTable _ (ih nofun g5)
      obtain ⟨_, g, -⟩ := g5.tok; exact g.nil.elim
    exact g2.nil.elim
  | argsStr =>
    intro _ ts' _ hr
    obtain ⟨_, g, -⟩ := hr.other (by decide)
    obtain ⟨_, g, -⟩ := g.tok; exact g.nil.elim
  | nameTailNil => intro _ _ _ hr; exact hr.nil.elim
  | nameTailCons ts h _ => intro _ _ _ hr; exact (Wr.noNames (.nameTailCons ts h) hr).elim
  | paramsEmpty =>
    intro _ ts' _ hr
    obtain ⟨_, g, -⟩ := hr.other (by decide)
    obtain ⟨_, g, -⟩ := g.tok
    obtain ⟨_, g, -⟩ := g.tok; exact g.nil.elim
  | paramsNames ts h _ =>
    intro _ ts' _ hr
    obtain ⟨_, g, -⟩ := hr.other (by decide)
    obtain ⟨_, g, -⟩ := g.tok
    rcases g.cons with ⟨_, g, -⟩ | ⟨_, g, -⟩
    · obtain ⟨_, g, -⟩ := g.other (by decide)
      obtain ⟨_, g, -⟩ := g.name
      exact (Wr.noNames h g).elim
    obtain ⟨_, g, -⟩ := g.tok; exact g.nil.elim
  | paramsVararg =>
    intro _ ts' _ hr
    obtain ⟨_, g, -⟩ := hr.other (by decide)
    obtain ⟨_, g, -⟩ := g.tok
    rcases g.cons with ⟨_, g, -⟩ | ⟨_, g, -⟩
    · obtain ⟨_, g, -⟩ := g.other (by decide)
      exact g.nil.elim
    obtain ⟨_, g, -⟩ := g.tok
    obtain ⟨_, g, -⟩ := g.tok; exact g.nil.elim
  | paramsNamesVararg ts h _ =>
    intro _ ts' _ hr
    obtain ⟨_, g, -⟩ := hr.other (by decide)
    obtain ⟨_, g, -⟩ := g.tok
    rcases g.cons with ⟨_, g, -⟩ | ⟨_, g, -⟩
    · obtain ⟨_, g, -⟩ := g.other (by decide)
      obtain ⟨_, g, -⟩ := g.name
      rcases g.app with ⟨_, g, -⟩ | ⟨_, g, -⟩
      · exact (Wr.noNames h g).elim
      obtain ⟨_, g, -⟩ := g.tok; exact g.nil.elim
    obtain ⟨_, g, -⟩ := g.tok
    obtain ⟨_, g, -⟩ := g.tok; exact g.nil.elim
  | paramsNoComma ts hx h _ =>
    intro _ ts' _ hr
    obtain ⟨_, g, -⟩ := hr.other (by decide)
    obtain ⟨_, g, -⟩ := g.tok
    rcases g.cons with ⟨_, g, -⟩ | ⟨_, g, -⟩
    · obtain ⟨_, g, -⟩ := g.other (by decide)
      obtain ⟨_, g, -⟩ := g.name
      exact (Wr.noNames h g).elim
    obtain ⟨_, g, -⟩ := g.tok
    obtain ⟨_, g, -⟩ := g.tok; exact g.nil.elim
  | block ts h ih =>
    intro _ ts' _ hr
    obtain ⟨_, g, rfl⟩ := hr.other (by decide)
    exact .block _ (ih nofun g)
  | stmtsNil => intro _ _ _ hr; exact hr.nil.elim
  | stmtsCons s ts hs ht hf ihs iht =>
    intro p ts' _ hr
    obtain ⟨sf, b, a, hw, ok⟩ := hr
    rcases put_app (xs := [s]) (ys := ts) hw with ⟨xs', a', h1, rfl, rfl⟩ | ⟨sf', ys', b', h1, rfl, rfl⟩
    · have hW : Wr K f E p [s] xs' := ⟨_, _, _, h1, ok_left ok⟩
      obtain ⟨s', rfl⟩ := hW.single
      refine .stmtsCons _ _ (ihs nofun hW) ht fun k hk => ⟨fun e => ?_, fun e => ?_⟩
      · subst e
        rcases endsCallable_wr hE h1 with e | ⟨rfl, e⟩
        · simp only [endsCallableL] at e
          rw [e]
          exact (hf _ hk).1 rfl
        · rcases ok.behind with h | h
          · exact absurd h e
          · exact absurd (by simpa using hk) h
      · exfalso
        subst e
        have hEn : ∀ {k cs}, E = .node k cs → k ∈ primaryKinds := by
          intro k cs e
          obtain ⟨k', _, h, e'⟩ := hE.node
          rw [e'] at e
          simp only [PTree.node.injEq] at e
          exact e.1 ▸ h
        generalize hz : [PTree.node .returnStmt [.tok .returnKw]] = z at h1
        cases h1 with
        | here =>
          simp only [List.cons.injEq, and_true] at hz
          exact absurd (hEn hz.symm) (by decide)
        | down h1 =>
          simp only [List.cons.injEq, PTree.node.injEq, and_true] at hz
          obtain ⟨rfl, rfl⟩ := hz
          generalize hz : [PTree.tok .returnKw] = z at h1
          cases h1 with
          | down => simp at hz
          | tail h1 =>
            simp only [List.cons.injEq] at hz
            obtain ⟨rfl, rfl⟩ := hz
            cases h1
        | tail h1 => cases h1
    · have hb : yieldL [s] = yield s := by simp [yieldL]
      rw [hb] at ok
      refine .stmtsCons _ _ hs (iht nofun ⟨_, _, _, h1, ok_right ok⟩) fun k hk => ?_
      replace hk : (yieldL ys').head? = some k := hk
      obtain ⟨y, e1, e2⟩ := put_yields h1
      cases b' with
      | cons z zs =>
        rw [e2] at hk
        refine hf k ?_
        rw [e1]
        simpa using hk
      | nil =>
        obtain ⟨z, ez⟩ := hE.first
        rw [e2, ez] at hk
        simp only [List.nil_append, List.cons_append, List.head?_cons, Option.some.injEq] at hk
        subst hk
        refine ⟨fun hfl => ?_, fun e => ?_⟩
        · cases hc : endsCallable s with
          | false => rfl
          | true =>
            exfalso
            obtain ⟨q, hq, e⟩ := Wrp.ends_last hs (by simpa [endsCallableL] using hc)
            rw [hb] at e
            exact (ok.before q (by simpa using e)).2 hfl hq
        · exfalso
          obtain ⟨k0, y0, hk0, hk1⟩ := first_expr ok.kind h1 (Wrp.deriv_exp ht)
          exact (hf k0 (by rw [hk1]; rfl)).2 e hk0
  | stmtsSemi s ts hs ht ihs iht =>
    intro _ ts' _ hr
    rcases hr.cons with ⟨_, g, rfl⟩ | ⟨_, g, rfl⟩
    · exact .stmtsSemi _ _ (ihs nofun g) ht
    obtain ⟨_, g1, rfl⟩ := g.tok
    exact .stmtsSemi _ _ hs (iht nofun g1)
  | ifStmt e b es he hb hes ihe ihb ihes =>
    intro _ ts' _ hr
    obtain ⟨_, g, rfl⟩ := hr.other (by decide)
    obtain ⟨_, g1, rfl⟩ := g.tok
    rcases g1.cons with ⟨_, g2, rfl⟩ | ⟨_, g2, rfl⟩
    · exact .ifStmt _ _ _ (ihe nofun g2) hb hes
    obtain ⟨_, g3, rfl⟩ := g2.tok
    rcases g3.cons with ⟨_, g4, rfl⟩ | ⟨_, g4, rfl⟩
    · exact .ifStmt _ _ _ he (ihb nofun g4) hes
    rcases g4.app with ⟨_, g5, rfl⟩ | ⟨_, g5, rfl⟩
    · exact .ifStmt _ _ _ he hb (ihes nofun g5)
    obtain ⟨_, g, -⟩ := g5.tok; exact g.nil.elim
  | elseNone => intro _ _ _ hr; exact hr.nil.elim
  | elseBranch b hb ih =>
    intro _ ts' _ hr
    obtain ⟨_, g, rfl⟩ := hr.other (by decide)
    obtain ⟨_, g1, rfl⟩ := g.tok
    obtain ⟨_, rfl⟩ := g1.single
    exact .elseBranch _ (ih nofun g1)
  | elseIf e b es he hb hes ihe ihb ihes =>
    intro _ ts' _ hr
    obtain ⟨_, g, rfl⟩ := hr.other (by decide)
    obtain ⟨_, g1, rfl⟩ := g.tok
    rcases g1.cons with ⟨_, g2, rfl⟩ | ⟨_, g2, rfl⟩
    · exact .elseIf _ _ _ (ihe nofun g2) hb hes
    obtain ⟨_, g3, rfl⟩ := g2.tok
    rcases g3.cons with ⟨_, g4, rfl⟩ | ⟨_, g4, rfl⟩
    · exact .elseIf _ _ _ he (ihb nofun g4) hes
    · exact .elseIf _ _ _ he hb (ihes nofun g4)
  | label =>
    intro _ ts' _ hr
    have hd : ∀ {p l}, Wr K f E p [PTree.node .labelDelim [.tok .doubleColon]] l → False := by
      intro p l g
      obtain ⟨_, g, -⟩ := g.other (by decide)
      obtain ⟨_, g, -⟩ := g.tok
      exact g.nil
    obtain ⟨_, g, -⟩ := hr.other (by decide)
    rcases g.cons with ⟨_, g, -⟩ | ⟨_, g, -⟩
    · exact (hd g).elim
    obtain ⟨_, g, -⟩ := g.name
    exact (hd g).elim
  | goto =>
    intro _ ts' _ hr
    obtain ⟨_, g, -⟩ := hr.other (by decide)
    obtain ⟨_, g, -⟩ := g.tok
    obtain ⟨_, g, -⟩ := Wr.nameRef g
    exact g.nil.elim
  | «break» =>
    intro _ ts' _ hr
    obtain ⟨_, g, -⟩ := hr.other (by decide)
    obtain ⟨_, g, -⟩ := g.tok; exact g.nil.elim
  | doStmt b hb ih =>
    intro _ ts' _ hr
    obtain ⟨_, g, rfl⟩ := hr.other (by decide)
    obtain ⟨_, g1, rfl⟩ := g.tok
    rcases g1.cons with ⟨_, g2, rfl⟩ | ⟨_, g2, rfl⟩
    · exact .doStmt _ (ih nofun g2)
    obtain ⟨_, g, -⟩ := g2.tok; exact g.nil.elim
  | «while» e b he hb ihe ihb =>
    intro _ ts' _ hr
    obtain ⟨_, g, rfl⟩ := hr.other (by decide)
    obtain ⟨_, g1, rfl⟩ := g.tok
    rcases g1.cons with ⟨_, g2, rfl⟩ | ⟨_, g2, rfl⟩
    · exact .while _ _ (ihe nofun g2) hb
    obtain ⟨_, g3, rfl⟩ := g2.tok
    rcases g3.cons with ⟨_, g4, rfl⟩ | ⟨_, g4, rfl⟩
    · exact .while _ _ he (ihb nofun g4)
    obtain ⟨_, g, -⟩ := g4.tok; exact g.nil.elim
  | «repeat» b e hb he ihb ihe =>
    intro _ ts' _ hr
    obtain ⟨_, g, rfl⟩ := hr.other (by decide)
    obtain ⟨_, g1, rfl⟩ := g.tok
    rcases g1.cons with ⟨_, g2, rfl⟩ | ⟨_, g2, rfl⟩
    · exact .repeat _ _ (ihb nofun g2) he
    obtain ⟨_, g3, rfl⟩ := g2.tok
    obtain ⟨_, rfl⟩ := g3.single
    exact .repeat _ _ hb (ihe nofun g3)
  | localFunction p b hp hb ihp ihb =>
    intro _ ts' _ hr
    obtain ⟨_, g, rfl⟩ := hr.other (by decide)
    obtain ⟨_, g1, rfl⟩ := g.tok
    obtain ⟨_, g2, rfl⟩ := g1.tok
    obtain ⟨_, g3, rfl⟩ := g2.name
    rcases g3.cons with ⟨_, g4, rfl⟩ | ⟨_, g4, rfl⟩
    · exact .localFunction _ _ (ihp nofun g4) hb
    rcases g4.cons with ⟨_, g5, rfl⟩ | ⟨_, g5, rfl⟩
    · exact .localFunction _ _ hp (ihb nofun g5)
    obtain ⟨_, g, -⟩ := g5.tok; exact g.nil.elim
  | localNames ts h _ =>
    intro _ ts' _ hr
    obtain ⟨_, g, -⟩ := hr.other (by decide)
    obtain ⟨_, g, -⟩ := g.tok
    obtain ⟨_, g, -⟩ := g.other (by decide)
    obtain ⟨_, g, -⟩ := g.name
    exact (Wr.noNames h g).elim
  | localAssign ts m h hm _ ihm =>
    intro _ ts' _ hr
    obtain ⟨_, g, rfl⟩ := hr.other (by decide)
    obtain ⟨_, g1, rfl⟩ := g.tok
    rcases g1.cons with ⟨_, g2, -⟩ | ⟨_, g2, rfl⟩
    · obtain ⟨_, g3, -⟩ := g2.other (by decide)
      obtain ⟨_, g4, -⟩ := g3.name
      exact (Wr.noNames h g4).elim
    obtain ⟨_, g3, rfl⟩ := g2.tok
    obtain ⟨_, rfl⟩ := g3.single
    exact .localAssign _ _ h (ihm nofun g3)
  | exprStmt m hm hs ih =>
    intro _ ts' _ hr
    obtain ⟨_, g, rfl⟩ := hr.other (by decide)
    obtain ⟨_, rfl⟩ := g.single
    exact .exprStmt _ (ih nofun g) (starts_wr hE g hs)
  | assign m m' hm hs hm' ih ih' =>
    intro _ ts' _ hr
    obtain ⟨_, g, rfl⟩ := hr.other (by decide)
    rcases g.cons with ⟨_, g2, rfl⟩ | ⟨_, g2, rfl⟩
    · exact .assign _ _ (ih nofun g2) (starts_wr hE g2 hs) hm'
    obtain ⟨_, g3, rfl⟩ := g2.tok
    obtain ⟨_, rfl⟩ := g3.single
    exact .assign _ _ hm hs (ih' nofun g3)
  | returnNone =>
    intro _ ts' _ hr
    obtain ⟨_, g, -⟩ := hr.other (by decide)
    obtain ⟨_, g, -⟩ := g.tok; exact g.nil.elim
  | «return» m hm ih =>
    intro _ ts' _ hr
    obtain ⟨_, g, rfl⟩ := hr.other (by decide)
    obtain ⟨_, g1, rfl⟩ := g.tok
    obtain ⟨_, rfl⟩ := g1.single
    exact .return _ (ih nofun g1)
  | function_ n p b hn hp hb ihn ihp ihb =>
    intro _ ts' _ hr
    obtain ⟨_, g, rfl⟩ := hr.other (by decide)
    obtain ⟨_, g1, rfl⟩ := g.tok
    rcases g1.cons with ⟨_, g2, rfl⟩ | ⟨_, g2, rfl⟩
    · exact .function_ _ _ _ (ihn nofun g2) hp hb
    rcases g2.cons with ⟨_, g3, rfl⟩ | ⟨_, g3, rfl⟩
    · exact .function_ _ _ _ hn (ihp nofun g3) hb
    rcases g3.cons with ⟨_, g4, rfl⟩ | ⟨_, g4, rfl⟩
    · exact .function_ _ _ _ hn hp (ihb nofun g4)
    obtain ⟨_, g, -⟩ := g4.tok; exact g.nil.elim
  | pathNil => intro _ _ _ hr; exact hr.nil.elim
  | pathCons ts h _ =>
    intro p _ hp hr
    obtain rfl := hp rfl
    exact (Wr.noPath (.pathCons ts h) hr).elim
  | plainName =>
    intro _ ts' _ hr
    obtain ⟨_, g, -⟩ := hr.other (by decide)
    obtain ⟨_, g, -⟩ := g.name; exact g.nil.elim
  | methodName ts h _ =>
    intro _ ts' _ hr
    obtain ⟨_, g, -⟩ := hr.other (by decide)
    obtain ⟨_, g, -⟩ := g.other (by decide)
    rcases g.cons with ⟨_, g, -⟩ | ⟨_, g, -⟩
    · obtain ⟨_, g, -⟩ := g.other (by decide)
      obtain ⟨_, g, -⟩ := Wr.nameRef g
      exact (Wr.noPath h g).elim
    obtain ⟨_, g, -⟩ := g.tok
    obtain ⟨_, g, -⟩ := g.name; exact g.nil.elim
  | staticName ts h _ =>
    intro _ ts' _ hr
    obtain ⟨_, g, -⟩ := hr.other (by decide)
    obtain ⟨_, g, -⟩ := g.other (by decide)
    rcases g.cons with ⟨_, g, -⟩ | ⟨_, g, -⟩
    · obtain ⟨_, g, -⟩ := g.other (by decide)
      obtain ⟨_, g, -⟩ := Wr.nameRef g
      rcases g.app with ⟨_, g, -⟩ | ⟨_, g, -⟩
      · exact (Wr.noPath h g).elim
      obtain ⟨_, g, -⟩ := g.tok; exact g.nil.elim
    obtain ⟨_, g, -⟩ := g.name; exact g.nil.elim
  | staticNoDot ts hx h _ =>
    intro _ ts' _ hr
    obtain ⟨_, g, -⟩ := hr.other (by decide)
    obtain ⟨_, g, -⟩ := g.other (by decide)
    rcases g.cons with ⟨_, g, -⟩ | ⟨_, g, -⟩
    · obtain ⟨_, g, -⟩ := g.other (by decide)
      obtain ⟨_, g, -⟩ := Wr.nameRef g
      exact (Wr.noPath h g).elim
    obtain ⟨_, g, -⟩ := g.name; exact g.nil.elim
  | forStmt c b hc hb ihc ihb =>
    intro _ ts' _ hr
    obtain ⟨_, g, rfl⟩ := hr.other (by decide)
    obtain ⟨_, g1, rfl⟩ := g.tok
    rcases g1.cons with ⟨_, g2, rfl⟩ | ⟨_, g2, rfl⟩
    · exact .forStmt _ _ (ihc nofun g2) hb
    obtain ⟨_, g3, rfl⟩ := g2.tok
    rcases g3.cons with ⟨_, g4, rfl⟩ | ⟨_, g4, rfl⟩
    · exact .forStmt _ _ hc (ihb nofun g4)
    obtain ⟨_, g, -⟩ := g4.tok; exact g.nil.elim
  | numericFor m hm ih =>
    intro _ ts' _ hr
    obtain ⟨_, g1, rfl⟩ := hr.other (by decide)
    rcases g1.cons with ⟨_, g2, rfl⟩ | ⟨_, g2, -⟩
    · obtain ⟨_, g3, e⟩ := g2.other (by decide)
      simp only [List.cons.injEq, and_true] at e
      subst e
      obtain ⟨_, g4, rfl⟩ := g3.name
      obtain ⟨_, g5, rfl⟩ := g4.tok
      obtain ⟨_, rfl⟩ := g5.single
      exact .numericFor _ (ih nofun g5)
    exact g2.nil.elim
  | genericFor ts e h he _ ihe =>
    intro _ ts' _ hr
    obtain ⟨_, g1, rfl⟩ := hr.other (by decide)
    rcases g1.cons with ⟨_, g2, rfl⟩ | ⟨_, g2, -⟩
    · obtain ⟨_, g3, e⟩ := g2.other (by decide)
      simp only [List.cons.injEq, and_true] at e
      subst e
      rcases g3.cons with ⟨_, g4, -⟩ | ⟨_, g4, rfl⟩
      · obtain ⟨_, g5, -⟩ := g4.other (by decide)
        obtain ⟨_, g6, -⟩ := g5.name
        exact (Wr.noNames h g6).elim
      obtain ⟨_, g5, rfl⟩ := g4.tok
      obtain ⟨_, rfl⟩ := g5.single
      exact .genericFor _ _ h (ihe nofun g5)
    exact g2.nil.elim
  | genericForList ts m hx h hm _ ihm =>
    intro _ ts' _ hr
    obtain ⟨_, g1, rfl⟩ := hr.other (by decide)
    rcases g1.cons with ⟨_, g2, rfl⟩ | ⟨_, g2, -⟩
    · obtain ⟨_, g3, e⟩ := g2.other (by decide)
      simp only [List.cons.injEq, and_true] at e
      subst e
      rcases g3.cons with ⟨_, g4, -⟩ | ⟨_, g4, rfl⟩
      · obtain ⟨_, g5, -⟩ := g4.other (by decide)
        obtain ⟨_, g6, -⟩ := g5.name
        exact (Wr.noNames h g6).elim
      obtain ⟨_, g5, rfl⟩ := g4.tok
      obtain ⟨_, rfl⟩ := g5.single
      exact .genericForList _ _ hx h (ihm nofun g5)
    exact g2.nil.elim



end Prm
end Verif
