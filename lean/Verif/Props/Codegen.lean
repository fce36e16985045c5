import Verif.Spec.Codegen
import Verif.Model.CodegenData
import Verif.Model.KindClasses
import Verif.Props.AstExamples
import Verif.Props.Grouping

/-
C113: the code generator; for every grammar its accessors return what the rules say, and what it makes of Lua's grammar file
is what is checked in.
-/
namespace Verif.Codegen
open Spec

/-! Lowering follows the sentences. -/

mutual
private theorem hidden_all : ∀ {l : Option String} {o : Role} {r : Rule} {s : List Slot}, Sentence l o r s → o = .hidden →
    ∀ it ∈ s, it.role = .hidden
  | _, _, _, _, .node .., h, it, hi => by simp only [List.mem_singleton] at hi; subst hi; exact h
  | _, _, _, _, .token .., h, it, hi => by simp only [List.mem_singleton] at hi; subst hi; simp [h]
  | _, _, _, _, .labeled hs, h, it, hi => hidden_all hs (by simp [h]) it hi
  | _, _, _, _, .seq _ hs, h, it, hi => hiddens_all hs h it hi
  | _, _, _, _, .list separators _ hp ht, h, it, hi => by
    simp only [h, if_true, List.cons_append, List.mem_cons, List.mem_append, List.mem_flatMap, List.not_mem_nil, or_false] at hi
    rcases hi with rfl | ⟨p, hp', hi | rfl⟩ | hi
    · rfl
    · exact hidden_all (hp p hp') rfl it hi
    · rfl
    · exact hidden_all ht rfl it hi
  | _, _, _, _, .alt _ hs, h, it, hi => hidden_all hs h it hi
  | _, _, _, _, .absent .., _, it, hi => by simp at hi
  | _, _, _, _, .present hs, h, it, hi => hidden_all hs h it hi
  | _, _, _, _, .rep ss hs, h, it, hi => by
    obtain ⟨s, hs', hi⟩ := List.mem_flatten.1 hi
    exact hidden_all (hs s hs') (by rw [h]; rfl) it hi
private theorem hiddens_all : ∀ {l : Option String} {o : Role} {rs : List Rule} {s : List Slot}, Sentences l o rs s →
    o = .hidden → ∀ it ∈ s, it.role = .hidden
  | _, _, _, _, .nil .., _, it, hi => by simp at hi
  | _, _, _, _, .cons hs ht, h, it, hi => by
    rcases List.mem_append.1 hi with hi | hi
    · exact hidden_all hs h it hi
    · exact hiddens_all ht h it hi
end

/-- The cardinality of the field for a place. -/
private def cardOf : Role → Cardinality
  | .many => .many
  | .trailing => .manyTrailing
  | _ => .optional

/-- The field lowering makes for a place. -/
private def fieldOf (it : Slot) : Field :=
  match it.symbol with
  | .token t => .token (quoteBracket t)
  | .node n => .node (it.label.getD (if it.role = .one then snake n else snake n ++ "s")) n (cardOf it.role)

/-- Fields for one part. -/
private def single : Field → Bool
  | .token _ => true
  | .node _ _ c => c == .optional

private def counted (f : Field) (it : Slot) : Bool := it.role != .hidden && fieldOf it == f

/-- The visible places have fields, and those for one part are filled at most as often as they are fields. -/
private def Lowered (s : List Slot) (fs : List Field) : Prop :=
  (∀ it ∈ s, it.role ≠ .hidden → fieldOf it ∈ fs ∧ (it.role = .one ∨ ∃ n, it.symbol = .node n)) ∧
    ∀ f, single f = true → s.countP (counted f) ≤ fs.count f

private theorem Lowered.nil (fs : List Field) : Lowered [] fs := ⟨by simp, by simp⟩

private theorem Lowered.of_hidden {s : List Slot} (h : ∀ it ∈ s, it.role = .hidden) (fs : List Field) : Lowered s fs := by
  refine ⟨fun it hi hr => absurd (h it hi) hr, fun f _ => ?_⟩
  have : s.countP (counted f) = 0 := by
    rw [List.countP_eq_zero]; intro it hi; simp [counted, h it hi]
  omega

private theorem Lowered.append {s t : List Slot} {fs gs : List Field} (h : Lowered s fs) (h' : Lowered t gs) :
    Lowered (s ++ t) (fs ++ gs) := by
  refine ⟨fun it hi hr => ?_, fun f hf => ?_⟩
  · rcases List.mem_append.1 hi with hi | hi
    · obtain ⟨a, b⟩ := h.1 it hi hr; exact ⟨List.mem_append_left _ a, b⟩
    · obtain ⟨a, b⟩ := h'.1 it hi hr; exact ⟨List.mem_append_right _ a, b⟩
  · rw [List.countP_append, List.count_append]
    have := h.2 f hf; have := h'.2 f hf; omega

private theorem Lowered.left {s : List Slot} {fs : List Field} (h : Lowered s fs) (gs : List Field) :
    Lowered s (fs ++ gs) := by
  have := h.append (Lowered.nil gs); rwa [List.append_nil] at this

private theorem Lowered.right {s : List Slot} {fs : List Field} (h : Lowered s fs) (gs : List Field) :
    Lowered s (gs ++ fs) := by
  have := (Lowered.nil gs).append h; rwa [List.nil_append] at this

/-- Places for many parts. -/
private theorem Lowered.many {s : List Slot} {fs : List Field}
    (h : ∀ it ∈ s, it.role ≠ .hidden → fieldOf it ∈ fs ∧ (∃ n, it.symbol = .node n) ∧ (it.role = .many ∨ it.role = .trailing)) :
    Lowered s fs := by
  refine ⟨fun it hi hr => ?_, fun f hf => ?_⟩
  · obtain ⟨a, b, c⟩ := h it hi hr; exact ⟨a, .inr b⟩
  · have : s.countP (counted f) = 0 := by
      rw [List.countP_eq_zero]; intro it hi hc
      simp only [counted, Bool.and_eq_true, bne_iff_ne, beq_iff_eq] at hc
      obtain ⟨_, ⟨n, e⟩, c⟩ := h it hi hc.1
      rw [← hc.2, fieldOf, e] at hf
      rcases c with c | c <;> rw [c] at hf <;> simp [single, cardOf] at hf
    omega

private theorem Lowered.one {it : Slot} (hr : it.role = .one) : Lowered [it] [fieldOf it] := by
  refine ⟨fun it' hi _ => ?_, fun f _ => ?_⟩
  · simp only [List.mem_singleton] at hi; subst hi; exact ⟨by simp, .inl hr⟩
  · simp only [List.countP_singleton, counted, List.count_singleton]
    by_cases h : fieldOf it = f
    · subst h; simp; split <;> omega
    · simp [h]

private theorem lowerCommaList_list {rs : List Rule} {n : String} {sep : Rule} {o : Role} {last : Rule}
    (h : ListRule rs n sep o last) (l : Option String) :
    lowerCommaList l (.seq rs) = some (.node (l.getD (snake n ++ "s")) n (cardOf o)) := by
  cases h <;> simp [lowerCommaList, pluralize, cardOf]

private theorem lowerCommaList_seq {rs : List Rule} (h : ∀ n sep o last, ¬ ListRule rs n sep o last) (l : Option String) :
    lowerCommaList l (.seq rs) = none := by
  unfold lowerCommaList
  split
  · rename_i n sep n' last he
    simp only [Rule.seq.injEq] at he
    split
    · rename_i hn; subst hn; subst he; exact absurd (.trailing _ _ _) (h _ _ _ _)
    · rfl
  · rename_i n sep n' he
    simp only [Rule.seq.injEq] at he
    split
    · rename_i hn; subst hn; subst he; exact absurd (.plain _ _) (h _ _ _ _)
    · rfl
  · rfl

private theorem lowerRules_mem {l : Option String} {r : Rule} : ∀ {rs : List Rule} {fs : List Field}, r ∈ rs →
    lowerRules l rs = .ok fs → ∃ f1 f2 f3, lowerRule l r = .ok f2 ∧ fs = f1 ++ (f2 ++ f3)
  | r' :: rs, fs, hm, h => by
    simp only [lowerRules] at h
    split at h
    · simp at h
    rename_i g hg
    split at h
    · simp at h
    rename_i g' hg'
    simp only [Except.ok.injEq] at h
    subst h
    rcases List.mem_cons.1 hm with rfl | hm
    · exact ⟨[], g, g', hg, rfl⟩
    · obtain ⟨f1, f2, f3, e, rfl⟩ := lowerRules_mem hm hg'
      exact ⟨g ++ f1, f2, f3, e, by simp⟩

mutual
private theorem lowered : ∀ {l : Option String} {o : Role} {r : Rule} {s : List Slot}, Sentence l o r s → o = .one →
    ∀ fs, lowerRule l r = .ok fs → Lowered s fs
  | _, _, _, _, .node l o n, h, fs, hf => by
    subst h
    simp only [lowerRule, lowerCommaList, Except.ok.injEq] at hf
    subst hf
    exact Lowered.one (it := ⟨.node n, l, .one⟩) rfl
  | _, _, _, _, .token l o t, h, fs, hf => by
    subst h
    simp only [lowerRule, lowerCommaList] at hf
    by_cases ht : t ∈ noAccessor
    · exact Lowered.of_hidden (by simp [ht]) fs
    · split at hf
      · simp at hf
      · split at hf
        · rename_i e; subst e; exact absurd (by decide) ht
        · simp only [Except.ok.injEq] at hf
          subst hf
          rw [if_neg ht]
          exact Lowered.one (it := ⟨.token t, l, .one⟩) rfl
  | _, _, _, _, .labeled (m := m) (s := s) hs, h, fs, hf => by
    subst h
    simp only [lowerRule, lowerCommaList] at hf
    split at hf
    · simp at hf
    · split at hf
      · rename_i hm
        have hm : m ∈ byHand := by simpa [manual, byHand] using hm
        exact Lowered.of_hidden (hidden_all hs (by simp [hm])) fs
      · rename_i hm
        have hm : m ∉ byHand := by simpa [manual, byHand] using hm
        exact lowered hs (by simp [hm]) fs hf
  | _, _, _, _, .seq hl hs, h, fs, hf => by
    subst h
    simp only [lowerRule, lowerCommaList_seq hl] at hf
    exact lowereds hs rfl fs hf
  | _, _, _, _, .list (l := l) (n := n) (o' := o') separators hl hp ht, h, fs, hf => by
    subst h
    simp only [lowerRule, lowerCommaList_list hl, Except.ok.injEq] at hf
    subst hf
    have ho : o' = .many ∨ o' = .trailing := by cases hl <;> simp
    have key : ∀ it : Slot, it = ⟨.node n, l, o'⟩ → fieldOf it ∈ [Field.node (l.getD (snake n ++ "s")) n (cardOf o')] ∧
        (∃ n, it.symbol = .node n) ∧ (it.role = .many ∨ it.role = .trailing) := by
      rintro _ rfl
      refine ⟨?_, ⟨n, rfl⟩, ho⟩
      rcases ho with rfl | rfl <;> simp [fieldOf]
    refine Lowered.many fun it hi hr => ?_
    simp only [List.cons_append, List.mem_cons, List.mem_append, List.mem_flatMap, List.not_mem_nil, or_false] at hi
    rcases hi with e | ⟨p, hp', hi | e⟩ | hi
    · exact key it (by simpa using e)
    · exact absurd (hidden_all (hp p hp') rfl it hi) hr
    · exact key it (by simpa using e)
    · exact absurd (hidden_all ht rfl it hi) hr
  | _, _, _, _, .alt hm hs, h, fs, hf => by
    subst h
    simp only [lowerRule, lowerCommaList] at hf
    obtain ⟨f1, f2, f3, e, rfl⟩ := lowerRules_mem hm hf
    exact ((lowered hs rfl f2 e).left f3).right f1
  | _, _, _, _, .absent .., _, fs, _ => Lowered.nil fs
  | _, _, _, _, .present hs, h, fs, hf => by
    simp only [lowerRule, lowerCommaList] at hf
    exact lowered hs h fs hf
  | _, _, _, _, .rep (l := l) (r := r) ss hs, h, fs, hf => by
    subst h
    cases r
    all_goals simp only [lowerRule, lowerCommaList, reduceCtorEq] at hf
    rename_i n
    simp only [Except.ok.injEq] at hf
    subst hf
    refine Lowered.many fun it hi hr => ?_
    obtain ⟨s, hs', hi⟩ := List.mem_flatten.1 hi
    have := hs s hs'
    cases this
    simp only [List.mem_singleton] at hi
    subst hi
    exact ⟨by simp [fieldOf, pluralize, cardOf, Role.repeated], ⟨n, rfl⟩, .inl rfl⟩
private theorem lowereds : ∀ {l : Option String} {o : Role} {rs : List Rule} {s : List Slot}, Sentences l o rs s →
    o = .one → ∀ fs, lowerRules l rs = .ok fs → Lowered s fs
  | _, _, _, _, .nil .., _, fs, _ => Lowered.nil fs
  | _, _, _, _, .cons hs ht, h, fs, hf => by
    simp only [lowerRules] at hf
    split at hf
    · simp at hf
    rename_i g hg
    split at hf
    · simp at hf
    rename_i g' hg'
    simp only [Except.ok.injEq] at hf
    subst hf
    exact (lowered hs h g hg).append (lowereds ht h g' hg')
end

/-- What the code generator makes of a field. -/
private def gen (kinds : KindsSrc) (src : AstSrc) (f : Field) : Option (String × Accessor) :=
  match f with
  | .token t => (((genMacroT kinds).lookup t).bind kindNamed).map fun k => (methodName kinds f, .token k)
  | .node _ ty .many => (castsOf src ty).map fun c => (methodName kinds f, .children c)
  | .node _ ty _ => (castsOf src ty).map fun c => (methodName kinds f, .child c)

private theorem genMethods_eq (kinds : KindsSrc) (src : AstSrc) (fs : List Field) :
    genMethods kinds src fs = (fs.filter fun f => f != .token ",").mapM (gen kinds src) := rfl

private theorem mapM_mem {α β : Type} {f : α → Option β} : ∀ {l : List α} {r : List β}, l.mapM f = some r →
    (∀ a ∈ l, ∃ b ∈ r, f a = some b) ∧ (∀ b ∈ r, ∃ a ∈ l, f a = some b) ∧
    ∀ D : β → β → Prop, r.Pairwise D → l.Pairwise fun a b => ∀ x y, f a = some x → f b = some y → D x y
  | [], r, h => by
    simp only [List.mapM_nil, Option.pure_def, Option.some.injEq] at h
    subst h; simp
  | a :: l, r, h => by
    simp only [List.mapM_cons, Option.pure_def, Option.bind_eq_bind, Option.bind_eq_some_iff, Option.some.injEq] at h
    obtain ⟨b, hb, r', hr, rfl⟩ := h
    obtain ⟨h1, h2, h3⟩ := mapM_mem hr
    refine ⟨?_, ?_, fun D hD => ?_⟩
    · intro x hx
      rcases List.mem_cons.1 hx with rfl | hx
      · exact ⟨b, by simp, hb⟩
      · obtain ⟨y, hy, e⟩ := h1 x hx; exact ⟨y, by simp [hy], e⟩
    · intro y hy
      rcases List.mem_cons.1 hy with rfl | hy
      · exact ⟨a, by simp, hb⟩
      · obtain ⟨x, hx, e⟩ := h2 y hy; exact ⟨x, by simp [hx], e⟩
    · rw [List.pairwise_cons] at hD ⊢
      refine ⟨fun x hx u v hu hv => ?_, h3 D hD.2⟩
      rw [hb] at hu; cases hu
      obtain ⟨w, hw, e⟩ := h1 x hx
      rw [hv] at e; cases e
      exact hD.1 v hw

private instance (a : Accessor) (p : Red) : Decidable (Accepts a p) := by
  cases a <;> unfold Accepts <;> infer_instance

/-- The parts an accessor looks for. -/
private def found (a : Accessor) (node : Red) : List Red := (parts node).filter fun p => decide (Accepts a p)

private theorem find_filter {α : Type} {p q : α → Bool} : ∀ l : List α, (∀ x ∈ l, p x = true → q x = true) →
    (l.filter q).filter p = l.filter p
  | [], _ => rfl
  | a :: l, h => by
    have ih := find_filter l fun x hx => h x (by simp [hx])
    by_cases hq : q a = true
    · simp [List.filter_cons, hq, ih]
    · have hp : ¬ p a = true := fun hp => hq (h a (by simp) hp)
      simp [List.filter_cons, hq, hp, ih]

private theorem find_head {α : Type} (p : α → Bool) (l : List α) : l.find? p = (l.filter p).head? := by
  rw [List.head?_filter]

private def pack : Accessor → List Red → Result
  | .children _, l => .many l
  | _, l => .one l.head?

private theorem run_found (a : Accessor) (node : Red) (ht : ∀ k, a = .token k → k.isTrivia = false) :
    a.run node = pack a (found a node) := by
  have hc : ∀ (ty : Casts), node.children.filter (fun c => ty.can c.kind) =
      (parts node).filter fun p => p.green.isNode && ty.can p.kind := by
    intro ty
    rw [Red.children, parts, find_filter (q := fun e : Red => e.green.isNode || !e.kind.isTrivia), List.filter_filter]
    · congr 1; funext x; rw [Bool.and_comm]
    · intro x _ h; simp only [Bool.and_eq_true] at h; simp [h.1]
  have hf : ∀ (ty : Casts), (fun p : Red => decide (p.green.isNode = true ∧ ty.can p.kind = true)) =
      fun p => p.green.isNode && ty.can p.kind := by
    intro ty; funext p; rw [Bool.eq_iff_iff]; simp
  cases a with
  | child ty =>
    simp only [Accessor.run, Ast.child, find_head, hc, found, Accepts, hf, pack]
  | children ty =>
    simp only [Accessor.run, Ast.children, hc, found, Accepts, hf, pack]
  | token k =>
    have hk := ht k rfl
    have e : (fun p : Red => decide (p.green.isNode = false ∧ p.kind = k)) = fun p => !p.green.isNode && p.kind == k := by
      funext p; rw [Bool.eq_iff_iff]; simp
    simp only [Accessor.run, Ast.token, find_head, found, Accepts, e, parts, pack]
    rw [find_filter (q := fun e : Red => e.green.isNode || !e.kind.isTrivia)]
    intro x _ h
    simp only [Bool.and_eq_true, beq_iff_eq] at h
    rw [h.2, hk]; simp

private theorem fill_zip {kinds : KindsSrc} {src : AstSrc} : ∀ {items : List Slot} {ps : List Red}, Fill kinds src items ps →
    (items.zip ps).map (·.1) = items ∧ (items.zip ps).map (·.2) = ps ∧ ∀ z ∈ items.zip ps, z.1.Fits kinds src z.2
  | _, _, .nil => by simp
  | _, _, .cons h ht => by
    obtain ⟨h1, h2, h3⟩ := fill_zip ht
    refine ⟨by simp [h1], by simp [h2], ?_⟩
    intro z hz
    rcases List.mem_cons.1 (by simpa using hz) with rfl | hz
    · exact h
    · exact h3 z hz

private theorem gen_fits {kinds : KindsSrc} {src : AstSrc} {it : Slot} {p : Red} {m : String × Accessor}
    (hm : gen kinds src (fieldOf it) = some m) (hv : it.role ≠ .hidden) (hn : it.role = .one ∨ ∃ n, it.symbol = .node n) :
    m.1 = it.accessor kinds ∧ (it.Fits kinds src p → Accepts m.2 p) ∧
    ((∃ c, m.2 = .children c) ↔ it.role = .many) := by
  obtain ⟨sym, label, role⟩ := it
  cases sym with
  | token t =>
    have hr : role = .one := by rcases hn with h | ⟨n, h⟩; exact h; simp at h
    subst hr
    simp only [fieldOf, gen, Option.map_eq_some_iff] at hm
    obtain ⟨k, hk, rfl⟩ := hm
    refine ⟨rfl, ?_, by simp⟩
    simp only [Slot.Fits, Accepts, hk, Option.some.injEq]
    rintro ⟨a, b⟩; exact ⟨a, b.symm⟩
  | node n =>
    cases role with
    | hidden => exact absurd rfl hv
    | one | many | trailing =>
      simp only [fieldOf, gen, cardOf, Option.map_eq_some_iff] at hm
      obtain ⟨c, hc, rfl⟩ := hm
      refine ⟨by simp [methodName, Slot.accessor], ?_, by simp⟩
      simp only [Slot.Fits, Accepts, hc, Option.some.injEq]
      rintro ⟨a, d, rfl, b⟩; exact ⟨a, b⟩

private theorem Lowered.filter {s : List Slot} {fs : List Field} (h : Lowered s fs)
    (hc : ∀ it ∈ s, it.role ≠ .hidden → it.symbol ≠ .token ",") : Lowered s (fs.filter fun f => f != .token ",") := by
  have hne : ∀ it ∈ s, it.role ≠ .hidden → fieldOf it ≠ .token "," := by
    intro it hi hr e
    cases hs : it.symbol with
    | node n => simp [fieldOf, hs] at e
    | token t =>
      simp only [fieldOf, hs, Field.token.injEq] at e
      refine hc it hi hr ?_
      rw [hs]
      unfold quoteBracket at e
      split at e
      · have := congrArg String.toList e
        simp at this
      · rw [e]
  refine ⟨fun it hi hr => ?_, fun f hf => ?_⟩
  · obtain ⟨a, b⟩ := h.1 it hi hr
    exact ⟨List.mem_filter.2 ⟨a, by simpa using hne it hi hr⟩, b⟩
  · by_cases hf' : f = .token ","
    · have : s.countP (counted f) = 0 := by
        rw [List.countP_eq_zero]; intro it hi hk
        simp only [counted, Bool.and_eq_true, bne_iff_ne, beq_iff_eq] at hk
        exact hne it hi hk.1 (hk.2.trans hf')
      omega
    · rw [List.count_filter (by simpa using hf')]
      exact h.2 f hf

mutual
private theorem visible_comma' : ∀ {l : Option String} {o : Role} {r : Rule} {s : List Slot}, Sentence l o r s →
    ∀ it ∈ s, it.role ≠ .hidden → it.symbol ≠ .token ","
  | _, _, _, _, .node .., it, hi => by simp only [List.mem_singleton] at hi; subst hi; simp
  | _, _, _, _, .token .., it, hi => by
    simp only [List.mem_singleton] at hi; subst hi
    intro hr e
    simp only [Symbol.token.injEq] at e
    subst e
    simp [noAccessor] at hr
  | _, _, _, _, .labeled hs, it, hi => visible_comma' hs it hi
  | _, _, _, _, .seq _ hs, it, hi => visible_commas' hs it hi
  | _, _, _, _, .list separators _ hp ht, it, hi => by
    simp only [List.cons_append, List.mem_cons, List.mem_append, List.mem_flatMap, List.not_mem_nil, or_false] at hi
    rcases hi with rfl | ⟨p, hp', hi | rfl⟩ | hi
    · simp
    · exact visible_comma' (hp p hp') it hi
    · simp
    · exact visible_comma' ht it hi
  | _, _, _, _, .alt _ hs, it, hi => visible_comma' hs it hi
  | _, _, _, _, .absent .., it, hi => by simp at hi
  | _, _, _, _, .present hs, it, hi => visible_comma' hs it hi
  | _, _, _, _, .rep ss hs, it, hi => by
    obtain ⟨s, hs', hi⟩ := List.mem_flatten.1 hi
    exact visible_comma' (hs s hs') it hi
private theorem visible_commas' : ∀ {l : Option String} {o : Role} {rs : List Rule} {s : List Slot}, Sentences l o rs s →
    ∀ it ∈ s, it.role ≠ .hidden → it.symbol ≠ .token ","
  | _, _, _, _, .nil .., it, hi => by simp at hi
  | _, _, _, _, .cons hs ht, it, hi => by
    rcases List.mem_append.1 hi with hi | hi
    · exact visible_comma' hs it hi
    · exact visible_commas' ht it hi
end

private theorem pairwise_all {α : Type} {R : α → α → Prop} (hs : ∀ x y, R x y → R y x) (hr : ∀ x, R x x) :
    ∀ {l : List α}, l.Pairwise R → ∀ a ∈ l, ∀ b ∈ l, R a b
  | [], _, a, ha, _, _ => by simp at ha
  | c :: l, h, a, ha, b, hb => by
    rw [List.pairwise_cons] at h
    rcases List.mem_cons.1 ha with rfl | ha
    · rcases List.mem_cons.1 hb with rfl | hb
      · exact hr _
      · exact h.1 b hb
    · rcases List.mem_cons.1 hb with e | hb
      · rw [e]; exact hs _ _ (h.1 a ha)
      · exact pairwise_all hs hr h.2 a ha b hb

private theorem eq_of_short {α : Type} {l : List α} (h : l.length ≤ 1) {a b : α} (ha : a ∈ l) (hb : b ∈ l) : a = b := by
  cases l with
  | nil => simp at ha
  | cons c l =>
    cases l with
    | nil => rw [List.mem_singleton] at ha hb; rw [ha, hb]
    | cons d l => simp at h

private theorem place_eq (kinds : KindsSrc) {y z : Slot} (hs : ¬ single (fieldOf z) = true) (hyv : y.role ≠ .hidden)
    (hv : z.role ≠ .hidden) (he : fieldOf y = fieldOf z) :
    y.accessor kinds = z.accessor kinds ∧ y.symbol = z.symbol ∧ y.role = z.role := by
  obtain ⟨ysym, ylabel, yrole⟩ := y
  obtain ⟨zsym, zlabel, zrole⟩ := z
  cases zsym with
  | token t => simp [fieldOf, single] at hs
  | node n =>
    cases ysym with
    | token t => simp [fieldOf] at he
    | node n' =>
      simp only [fieldOf, Field.node.injEq] at he
      obtain ⟨e1, rfl, e3⟩ := he
      refine ⟨e1, rfl, ?_⟩
      simp only at hyv hv e3
      cases yrole <;> cases zrole <;> simp [cardOf] at e3 hyv hv ⊢

private theorem field_eq (kinds : KindsSrc) {y z : Slot} (e1 : y.accessor kinds = z.accessor kinds)
    (e2 : y.symbol = z.symbol) (e3 : y.role = z.role) : fieldOf y = fieldOf z := by
  obtain ⟨ysym, ylabel, yrole⟩ := y
  obtain ⟨zsym, zlabel, zrole⟩ := z
  simp only at e2 e3
  subst e2; subst e3
  cases ysym with
  | token t => rfl
  | node n =>
    simp only [fieldOf, Field.node.injEq, and_true]
    exact e1

/-- What an accessor returns, as a list. -/
def _root_.Verif.Spec.returned : Result → List Red
  | .one r => r.toList
  | .many rs => rs

/-- **C113**: let the parts of a node be a sentence of its rule.  If no part is something two accessors look for, or is
something an accessor looks for but stands at a place without accessor, then every other part is returned by the accessor
named after its place: `Option` accessors return the part there, those for lists all the parts of the list in order, and
those for lists with a trailing separator only the first; and nothing else is ever returned. -/
theorem C113_accessors (kinds : KindsSrc) (src : AstSrc) (rule : Rule) (fields : List Field) (ms : List (String × Accessor))
    (hl : lowerRule none rule = .ok fields) (hg : genMethods kinds src fields = some ms)
    (node : Red) (items : List Slot) (hs : Sentence none .one rule items) (hfill : Fill kinds src items (parts node))
    (hd : ms.Pairwise fun a b => ∀ p ∈ parts node, ¬ (Accepts a.2 p ∧ Accepts b.2 p))
    (hh : ∀ z ∈ items.zip (parts node), z.1.role = .hidden → ∀ m ∈ ms, ¬ Accepts m.2 z.2)
    (ht : ∀ m ∈ ms, ∀ k, m.2 = .token k → k.isTrivia = false) :
    (∀ z ∈ items.zip (parts node), z.1.role ≠ .hidden → ∃ a, (z.1.accessor kinds, a) ∈ ms ∧
      a.run node = expected kinds items (parts node) z.1 ∧ (z.1.role = .one → a.run node = .one (some z.2))) ∧
    ∀ m ∈ ms, ∀ p ∈ returned (m.2.run node), ∃ it, (it, p) ∈ items.zip (parts node) ∧ it.role ≠ .hidden ∧
      it.accessor kinds = m.1 := by
  rw [genMethods_eq] at hg
  obtain ⟨g1, g2, g3⟩ := mapM_mem hg
  obtain ⟨f1, f2, f3⟩ := fill_zip hfill
  have hlow := (lowered hs rfl fields hl).filter (visible_comma' hs)
  have hpw := g3 _ hd
  generalize (fields.filter fun f => f != .token ",") = fs at *
  generalize hz : items.zip (parts node) = zs at *
  have hmem : ∀ z ∈ zs, z.1 ∈ items := fun z h => f1 ▸ List.mem_map_of_mem h
  have hpart : ∀ z ∈ zs, z.2 ∈ parts node := fun z h => f2 ▸ List.mem_map_of_mem h
  -- a visible part is accepted by its own accessor only
  have own : ∀ z ∈ zs, z.1.role ≠ .hidden → ∃ m ∈ ms, gen kinds src (fieldOf z.1) = some m ∧ Accepts m.2 z.2 ∧
      m.1 = z.1.accessor kinds := by
    intro z h hv
    obtain ⟨a, b⟩ := hlow.1 z.1 (hmem z h) hv
    obtain ⟨m, hm, e⟩ := g1 _ a
    obtain ⟨k1, k2, -⟩ := gen_fits (p := z.2) e hv b
    exact ⟨m, hm, e, k2 (f3 z h), k1⟩
  have same : ∀ f ∈ fs, ∀ g ∈ fs, ∀ a b, gen kinds src f = some a → gen kinds src g = some b →
      ∀ p ∈ parts node, Accepts a.2 p → Accepts b.2 p → f = g := by
    intro f hf g hg' a b ha hb p hp h1 h2
    refine Classical.byContradiction fun hne => ?_
    have hsym := pairwise_all (l := fs)
      (R := fun f g => f = g ∨ ∀ a b, gen kinds src f = some a → gen kinds src g = some b →
        ∀ p ∈ parts node, ¬ (Accepts a.2 p ∧ Accepts b.2 p))
      (by rintro x y (h | h)
          · exact .inl h.symm
          · exact .inr fun a b ha hb p hp hab => h b a hb ha p hp ⟨hab.2, hab.1⟩)
      (fun x => .inl rfl) (hpw.imp fun h => .inr h) f hf g hg'
    rcases hsym with h | h
    · exact hne h
    · exact h a b ha hb p hp ⟨h1, h2⟩
  have agree : ∀ z ∈ zs, z.1.role ≠ .hidden → ∀ m, gen kinds src (fieldOf z.1) = some m → ∀ y ∈ zs,
      (Accepts m.2 y.2 ↔ y.1.accessor kinds = z.1.accessor kinds ∧ y.1.symbol = z.1.symbol ∧ y.1.role = z.1.role) ∧
      (Accepts m.2 y.2 → z.1.role = .one → y = z) := by
    intro z h hv m hm y hy
    obtain ⟨a, b⟩ := hlow.1 z.1 (hmem z h) hv
    have hfwd : Accepts m.2 y.2 → y.1.role ≠ .hidden ∧ fieldOf y.1 = fieldOf z.1 := by
      intro hacc
      have hyv : y.1.role ≠ .hidden := by
        intro e
        obtain ⟨m', hm', e'⟩ := g1 _ a
        rw [hm] at e'; cases e'
        exact hh y hy e m hm' hacc
      obtain ⟨a', -⟩ := hlow.1 y.1 (hmem y hy) hyv
      obtain ⟨m', hm', e', hacc', -⟩ := own y hy hyv
      exact ⟨hyv, same _ a' _ a m' m e' hm y.2 (hpart y hy) hacc' hacc⟩
    have hcount : single (fieldOf z.1) = true → Accepts m.2 y.2 → y = z := by
      intro hs' hacc
      obtain ⟨hyv, he⟩ := hfwd hacc
      have h1 : items.countP (counted (fieldOf z.1)) ≤ fs.count (fieldOf z.1) := hlow.2 _ hs'
      have h2 : fs.count (fieldOf z.1) ≤ 1 := by
        refine Classical.byContradiction fun hc => ?_
        have hsub : [fieldOf z.1, fieldOf z.1].Sublist fs := by
          have := List.replicate_sublist_iff.2 (show 2 ≤ fs.count (fieldOf z.1) by omega)
          simpa [List.replicate] using this
        have hp := hpw.sublist hsub
        simp only [List.pairwise_cons, List.mem_singleton, forall_eq] at hp
        obtain ⟨m', _, e', hacc', _⟩ := own z h hv
        rw [hm] at e'; cases e'
        exact hp.1 m m hm hm z.2 (hpart z h) ⟨hacc', hacc'⟩
      rw [← f1, List.countP_map] at h1
      have hlen : (zs.filter (counted (fieldOf z.1) ∘ fun z => z.1)).length ≤ 1 := by
        rw [← List.countP_eq_length_filter]; omega
      have m1 : z ∈ zs.filter (counted (fieldOf z.1) ∘ fun z => z.1) :=
        List.mem_filter.2 ⟨h, by simp [counted, hv]⟩
      have m2 : y ∈ zs.filter (counted (fieldOf z.1) ∘ fun z => z.1) :=
        List.mem_filter.2 ⟨hy, by simp [counted, hyv, he]⟩
      exact eq_of_short hlen m2 m1
    have hone : z.1.role = .one → single (fieldOf z.1) = true := by
      intro hr
      cases hsym : z.1.symbol <;> simp [fieldOf, single, hsym, hr, cardOf]
    refine ⟨⟨fun hacc => ?_, fun ⟨e1, e2, e3⟩ => ?_⟩, fun hacc hr => hcount (hone hr) hacc⟩
    · by_cases hs' : single (fieldOf z.1) = true
      · rw [hcount hs' hacc]; exact ⟨rfl, rfl, rfl⟩
      · obtain ⟨hyv, he⟩ := hfwd hacc
        exact place_eq kinds hs' hyv hv he
    · have hyv : y.1.role ≠ .hidden := by rw [e3]; exact hv
      have hb : y.1.role = .one ∨ ∃ n, y.1.symbol = .node n := by rw [e3, e2]; exact b
      have he : fieldOf y.1 = fieldOf z.1 := field_eq kinds e1 e2 e3
      exact (gen_fits (p := y.2) (he ▸ hm) hyv hb).2.1 (f3 y hy)
  refine ⟨fun z h hv => ?_, fun m hm p hp => ?_⟩
  · obtain ⟨m, hm, e, hacc, hname⟩ := own z h hv
    obtain ⟨-, b⟩ := hlow.1 z.1 (hmem z h) hv
    have hkind := (gen_fits (p := z.2) e hv b).2.2
    have hfound : found m.2 node = sameParts kinds items (parts node) z.1 := by
      rw [found, sameParts, hz, ← f2, List.filter_map]
      congr 1
      refine List.filter_congr fun y hy => ?_
      have := (agree z h hv m e y hy).1
      simp only [Function.comp_apply]
      exact decide_eq_decide.2 this
    have hrun := run_found m.2 node (ht m hm)
    rw [hfound] at hrun
    refine ⟨m.2, hname ▸ hm, ?_, fun hr => ?_⟩
    · rw [hrun, expected]
      by_cases hmany : z.1.role = .many
      · obtain ⟨c, hc⟩ := hkind.2 hmany
        rw [hc, hmany]; rfl
      · have : ∀ c, m.2 ≠ .children c := fun c hc => hmany (hkind.1 ⟨c, hc⟩)
        cases hm2 : m.2 with
        | children c => exact absurd hm2 (this c)
        | child c => cases hr : z.1.role <;> first | rfl | exact absurd hr hmany
        | token k => cases hr : z.1.role <;> first | rfl | exact absurd hr hmany
    · have hne : ∀ c, m.2 ≠ .children c := fun c hc => by
        have := hkind.1 ⟨c, hc⟩; rw [hr] at this; simp at this
      have hhead : (sameParts kinds items (parts node) z.1).head? = some z.2 := by
        rw [sameParts, hz]
        have hall : ∀ y ∈ zs.filter (fun x => decide (x.1.accessor kinds = z.1.accessor kinds ∧ x.1.symbol = z.1.symbol ∧
            x.1.role = z.1.role)), y = z := by
          intro y hy
          obtain ⟨hy, hp⟩ := List.mem_filter.1 hy
          have := agree z h hv m e y hy
          exact this.2 (this.1.2 (by simpa using hp)) hr
        have hin : z ∈ zs.filter (fun x => decide (x.1.accessor kinds = z.1.accessor kinds ∧ x.1.symbol = z.1.symbol ∧
            x.1.role = z.1.role)) := List.mem_filter.2 ⟨h, by simp⟩
        match hL : zs.filter (fun x => decide (x.1.accessor kinds = z.1.accessor kinds ∧ x.1.symbol = z.1.symbol ∧
            x.1.role = z.1.role)) with
        | [] => rw [hL] at hin; simp at hin
        | w :: ws =>
          rw [hL] at hall ⊢
          rw [hall w (by simp)]; rfl
      rw [hrun]
      cases hm2 : m.2 with
      | children c => exact absurd hm2 (hne c)
      | child c => rw [← hhead]; rfl
      | token k => rw [← hhead]; rfl
  · have hrun := run_found m.2 node (ht m hm)
    have hp' : p ∈ found m.2 node := by
      rw [hrun] at hp
      cases hm2 : m.2 <;> rw [hm2] at hp <;> simp only [returned, pack, Option.mem_toList] at hp
      · exact List.mem_of_mem_head? hp
      · exact hp
      · exact List.mem_of_mem_head? hp
    obtain ⟨hp1, hp2⟩ := List.mem_filter.1 hp'
    have hacc : Accepts m.2 p := by simpa using hp2
    rw [← f2, List.mem_map] at hp1
    obtain ⟨⟨it, q⟩, hq, rfl⟩ := hp1
    have hv : it.role ≠ .hidden := fun e => hh _ hq e m hm hacc
    obtain ⟨m', hm', -, hacc', hname⟩ := own _ hq hv
    refine ⟨it, hq, hv, ?_⟩
    have : m = m' := by
      have hsym := pairwise_all (l := ms)
        (R := fun a b => a = b ∨ ∀ p ∈ parts node, ¬ (Accepts a.2 p ∧ Accepts b.2 p))
        (by rintro x y (h | h)
            · exact .inl h.symm
            · exact .inr fun p hp hab => h p hp ⟨hab.2, hab.1⟩)
        (fun x => .inl rfl) (hd.imp fun h => .inr h) m hm m' hm'
      rcases hsym with h | h
      · exact h
      · exact absurd ⟨hacc, hacc'⟩ (h q (hpart _ hq))
    rw [this]; exact hname.symm

/-! The places without accessor. -/

mutual
/-- The symbols of the places without accessor. -/
private def concealed (hide : Bool) : Rule → List Symbol
  | .node n => if hide then [.node n] else []
  | .token t => if hide || t ∈ noAccessor then [.token t] else []
  | .labeled m r => concealed (hide || m ∈ byHand) r
  | .seq [.node n, .rep (.seq [sep, .node n'])] =>
    if n' = n then (if hide then [.node n] else []) ++ concealed true sep
    else concealeds hide [.node n, .rep (.seq [sep, .node n'])]
  | .seq [.node n, .rep (.seq [sep, .node n']), .opt last] =>
    if n' = n then (if hide then [.node n] else []) ++ concealed true sep ++ concealed true last
    else concealeds hide [.node n, .rep (.seq [sep, .node n']), .opt last]
  | .seq rs => concealeds hide rs
  | .alt rs => concealeds hide rs
  | .opt r => concealed hide r
  | .rep r => concealed hide r
/-- See `concealed`. -/
private def concealeds (hide : Bool) : List Rule → List Symbol
  | [] => []
  | r :: rs => concealed hide r ++ concealeds hide rs
end

private theorem concealed_list {rs : List Rule} {n : String} {sep : Rule} {o : Role} {last : Rule}
    (h : ListRule rs n sep o last) (hide : Bool) :
    concealed hide (.seq rs) = (if hide then [.node n] else []) ++ concealed true sep ++ concealed true last := by
  cases h <;> simp [concealed, concealeds]

private theorem concealed_seq {rs : List Rule} (h : ∀ n sep o last, ¬ ListRule rs n sep o last) (hide : Bool) :
    concealed hide (.seq rs) = concealeds hide rs := by
  unfold concealed
  split <;> try rfl
  all_goals simp_all
  · intro e; subst e; exact absurd (.plain _ _) (h _ _ _ _)
  · intro e; subst e; exact absurd (.trailing _ _ _) (h _ _ _ _)

private theorem concealeds_mem {hide : Bool} {r : Rule} {x : Symbol} : ∀ {rs : List Rule}, r ∈ rs → x ∈ concealed hide r →
    x ∈ concealeds hide rs
  | r' :: rs, hm, hx => by
    rw [concealeds, List.mem_append]
    rcases List.mem_cons.1 hm with rfl | hm
    · exact .inl hx
    · exact .inr (concealeds_mem hm hx)

mutual
private theorem hidden_symbol : ∀ {l : Option String} {o : Role} {r : Rule} {s : List Slot}, Sentence l o r s →
    ∀ it ∈ s, it.role = .hidden → it.symbol ∈ concealed (o == .hidden) r
  | _, _, _, _, .node .., it, hi, hr => by
    simp only [List.mem_singleton] at hi; subst hi
    simp only at hr; subst hr; simp [concealed]
  | _, _, _, _, .token .., it, hi, hr => by
    simp only [List.mem_singleton] at hi; subst hi
    simp only at hr
    simp only [concealed, Bool.or_eq_true, decide_eq_true_eq, beq_iff_eq]
    split at hr
    · rename_i h; simp [h]
    · subst hr; simp
  | _, _, _, _, .labeled (o := o) (m := m) hs, it, hi, hr => by
    have := hidden_symbol hs it hi hr
    have e : ((if m ∈ byHand then Role.hidden else o) == .hidden) = (o == .hidden || decide (m ∈ byHand)) := by
      by_cases hm : m ∈ byHand <;> simp [hm]
    rw [e] at this
    simpa [concealed] using this
  | _, _, _, _, .seq hl hs, it, hi, hr => by
    rw [concealed_seq hl]; exact hidden_symbols hs it hi hr
  | _, _, _, _, .list (o := o) (o' := o') separators hl hp ht, it, hi, hr => by
    rw [concealed_list hl]
    simp only [List.cons_append, List.mem_cons, List.mem_append, List.mem_flatMap, List.not_mem_nil, or_false] at hi
    have ho : o' ≠ .hidden := by cases hl <;> simp
    rw [List.mem_append, List.mem_append]
    rcases hi with rfl | ⟨p, hp', hi | rfl⟩ | hi
    · simp only at hr
      split at hr
      · rename_i h; subst h; simp
      · exact absurd hr ho
    · exact .inl (.inr (hidden_symbol (hp p hp') it hi hr))
    · simp only at hr
      split at hr
      · rename_i h; subst h; simp
      · exact absurd hr ho
    · exact .inr (hidden_symbol ht it hi hr)
  | _, _, _, _, .alt hm hs, it, hi, hr => by
    rw [concealed]; exact concealeds_mem hm (hidden_symbol hs it hi hr)
  | _, _, _, _, .absent .., it, hi, _ => by simp at hi
  | _, _, _, _, .present hs, it, hi, hr => by rw [concealed]; exact hidden_symbol hs it hi hr
  | _, _, _, _, .rep (o := o) ss hs, it, hi, hr => by
    obtain ⟨s, hs', hi⟩ := List.mem_flatten.1 hi
    have := hidden_symbol (hs s hs') it hi hr
    have e : (o.repeated == .hidden) = (o == .hidden) := by cases o <;> rfl
    rw [e] at this
    rw [concealed]; exact this
private theorem hidden_symbols : ∀ {l : Option String} {o : Role} {rs : List Rule} {s : List Slot}, Sentences l o rs s →
    ∀ it ∈ s, it.role = .hidden → it.symbol ∈ concealeds (o == .hidden) rs
  | _, _, _, _, .nil .., it, hi, _ => by simp at hi
  | _, _, _, _, .cons hs ht, it, hi, hr => by
    rw [concealeds, List.mem_append]
    rcases List.mem_append.1 hi with hi | hi
    · exact .inl (hidden_symbol hs it hi hr)
    · exact .inr (hidden_symbols ht it hi hr)
end

/-! The grammar file of Lua. -/

/-- What the code generator makes of `lua.ungram`. -/
def luaSrc : AstSrc := match lower luaGrammar with
  | .ok src => src
  | .error _ => {}

private def accepts (a : Accessor) (isNode : Bool) (k : SyntaxKind) : Bool :=
  match a with
  | .child ty | .children ty => isNode && ty.can k
  | .token k' => !isNode && k == k'

private theorem accepts_iff (a : Accessor) (p : Red) : Accepts a p ↔ accepts a p.green.isNode p.kind = true := by
  cases a <;> simp [Accepts, accepts]

private def symbolFits (x : Symbol) : Bool → SyntaxKind → Bool :=
  match x with
  | .node n => match castsOf luaSrc n with
    | some c => fun isNode k => isNode && c.can k
    | none => fun _ _ => false
  | .token t => match ((genMacroT luaKinds).lookup (quoteBracket t)).bind kindNamed with
    | some k' => fun isNode k => !isNode && k == k'
    | none => fun _ _ => false

private theorem symbolFits_of {it : Slot} {p : Red} (h : it.Fits luaKinds luaSrc p) :
    symbolFits it.symbol p.green.isNode p.kind = true := by
  unfold Slot.Fits at h
  unfold symbolFits
  cases hs : it.symbol with
  | node n =>
    rw [hs] at h
    obtain ⟨a, c, hc, b⟩ := h
    simp [hc, a, b]
  | token t =>
    rw [hs] at h
    obtain ⟨a, b⟩ := h
    simp [a, b]

private def apart (f g : Bool → SyntaxKind → Bool) : Bool :=
  [true, false].all fun b => SyntaxKind.all.all fun k => !(f b k && g b k)

private theorem mem_all (k : SyntaxKind) : k ∈ SyntaxKind.all := by cases k <;> decide

private theorem apart_spec {f g : Bool → SyntaxKind → Bool} (h : apart f g = true) (b : Bool) (k : SyntaxKind) :
    ¬ (f b k = true ∧ g b k = true) := by
  simp only [apart, List.all_eq_true] at h
  have := h b (by cases b <;> simp) k (mem_all k)
  intro ⟨h1, h2⟩
  simp [h1, h2] at this

private def pairwiseB {α : Type} (r : α → α → Bool) : List α → Bool
  | [] => true
  | a :: l => l.all (r a) && pairwiseB r l

private theorem pairwiseB_spec {α : Type} {r : α → α → Bool} : ∀ {l : List α}, pairwiseB r l = true →
    l.Pairwise fun a b => r a b = true
  | [], _ => .nil
  | a :: l, h => by
    simp only [pairwiseB, Bool.and_eq_true, List.all_eq_true] at h
    exact List.pairwise_cons.2 ⟨h.1, pairwiseB_spec h.2⟩

private def clean (rule : Rule) (ms : List (String × Accessor)) : Bool :=
  pairwiseB (fun a b => apart (accepts a.2) (accepts b.2)) ms &&
  ((concealed false rule).all fun x => ms.all fun m => apart (symbolFits x) (accepts m.2)) &&
  ms.all fun m => match m.2 with
    | .token k => !k.isTrivia
    | _ => true

private def cleanRule (rule : Rule) : Bool :=
  match lowerRule none rule with
  | .ok fields => match genMethods luaKinds luaSrc fields with
    | some ms => clean rule ms
    | none => false
  | .error _ => false


/-! The checked-in files. -/

private def exprs : Casts := .enum [.literal, .tableExpr, .infixExpr, .prefixExpr, .indexExpr, .dotExpr, .functionExpr,
  .callExpr, .methodCallExpr, .nameRef]

private def stmts : Casts := .enum [.block, .assignStmt, .localAssignStmt, .localFunctionDefStmt, .functionDefStmt, .forStmt,
  .ifStmt, .returnStmt, .whileStmt, .exprStmt, .breakStmt, .repeatUntilStmt, .labelStmt, .gotoStmt]

/-- The structs the code generator makes for Lua, written out. -/
private def structs : List (String × List (String × Accessor)) := [
  ("Name", [("ident_token", .token .ident)]),
  ("NameRef", [("ident_token", .token .ident)]),
  ("MultiName", [("names", .children (.struct .name))]),
  ("SourceFile", [("body", .child (.struct .block))]),
  ("Block", [("stmts", .children stmts)]),
  ("AssignStmt", [("eq_token", .token .eq)]),
  ("LocalAssignStmt", [("local_token", .token .localKw), ("multi_name", .child (.struct .multiName)),
    ("eq_token", .token .eq), ("multival_expr", .child (.struct .multivalExpr))]),
  ("LocalFunctionDefStmt", [("local_token", .token .localKw), ("function_token", .token .functionKw),
    ("name", .child (.struct .name)), ("param_list", .child (.struct .paramList)),
    ("body", .child (.struct .block)), ("end_token", .token .endKw)]),
  ("FunctionDefStmt", [("function_token", .token .functionKw),
    ("function_def_content", .child (.enum [.functionMethod, .functionStatic, .name])),
    ("param_list", .child (.struct .paramList)), ("body", .child (.struct .block)), ("end_token", .token .endKw)]),
  ("ForStmt", [("for_token", .token .forKw), ("content", .child (.enum [.numericFor, .genericFor])),
    ("do_token", .token .doKw), ("block", .child (.struct .block)), ("end_token", .token .endKw)]),
  ("IfStmt", [("if_token", .token .ifKw), ("cond", .child exprs), ("then_token", .token .thenKw),
    ("block", .child (.struct .block)), ("else_branch", .child (.struct .elseBranch)),
    ("else_if_branch", .child (.struct .elseIfBranch)), ("end_token", .token .endKw)]),
  ("ReturnStmt", [("return_token", .token .returnKw), ("expr", .child exprs)]),
  ("WhileStmt", [("while_token", .token .whileKw), ("cond", .child exprs), ("do_token", .token .doKw),
    ("body", .child (.struct .block)), ("end_token", .token .endKw)]),
  ("ExprStmt", [("multival_expr", .child (.struct .multivalExpr))]),
  ("BreakStmt", [("break_token", .token .breakKw)]),
  ("RepeatUntilStmt", [("repeat_token", .token .repeatKw), ("block", .child (.struct .block)),
    ("until_token", .token .untilKw), ("expr", .child exprs)]),
  ("LabelStmt", [("start", .child (.struct .labelDelim)), ("name", .child (.struct .name)),
    ("finish", .child (.struct .labelDelim))]),
  ("GotoStmt", [("goto_token", .token .gotoKw), ("name_ref", .child (.struct .nameRef))]),
  ("LabelDelim", [("double_colon_token", .token .doubleColon)]),
  ("DoStmt", [("do_token", .token .doKw), ("body", .child (.struct .block)), ("end_token", .token .endKw)]),
  ("ParamList", [("l_paren_token", .token .lParen), ("multi_name", .child (.struct .multiName)),
    ("triple_dot_token", .token .tripleDot), ("r_paren_token", .token .rParen)]),
  ("FunctionMethod", [("index_path", .child (.struct .indexPath)), ("colon_token", .token .colon),
    ("name", .child (.struct .name))]),
  ("FunctionStatic", [("index_path", .child (.struct .indexPath)), ("dot_token", .token .dot),
    ("name", .child (.struct .name))]),
  ("IndexPath", [("name_refs", .children (.struct .nameRef))]),
  ("MultivalExpr", [("exprs", .children exprs)]),
  ("ElseBranch", [("else_token", .token .elseKw), ("block", .child (.struct .block))]),
  ("ElseIfBranch", [("elseif_token", .token .elseifKw), ("cond", .child exprs), ("then_token", .token .thenKw),
    ("block", .child (.struct .block)), ("else_if_branch", .child (.struct .elseIfBranch)),
    ("else_branch", .child (.struct .elseBranch))]),
  ("NumericFor", [("name", .child (.struct .name)), ("eq_token", .token .eq),
    ("expr", .child (.struct .multivalExpr))]),
  ("GenericFor", [("multi_name", .child (.struct .multiName)), ("in_token", .token .inKw),
    ("expr", .child (.struct .multivalExpr))]),
  ("Literal", [("number_token", .token .number), ("str_token", .token .str), ("true_token", .token .trueKw),
    ("false_token", .token .falseKw)]),
  ("TableExpr", [("l_curly_token", .token .lBrace),
    ("table_contents", .child (.enum [.keyValue, .positionalValue])), ("r_curly_token", .token .rBrace)]),
  ("InfixExpr", []),
  ("PrefixExpr", [("expr", .child exprs)]),
  ("IndexExpr", [("base", .child exprs), ("index", .child (.struct .index))]),
  ("DotExpr", [("expr", .child exprs), ("dot_token", .token .dot), ("ident_token", .token .ident)]),
  ("FunctionExpr", [("function_token", .token .functionKw), ("params", .child (.struct .paramList)),
    ("body", .child (.struct .block)), ("end_token", .token .endKw)]),
  ("CallExpr", [("fun", .child exprs), ("call_args", .child (.struct .callArgs))]),
  ("MethodCallExpr", [("fun", .child exprs), ("colon_token", .token .colon),
    ("name_ref", .child (.struct .nameRef)), ("call_args", .child (.struct .callArgs))]),
  ("CallArgs", [("arg_list", .child (.struct .argList)), ("table_expr", .child (.struct .tableExpr)),
    ("str_token", .token .str)]),
  ("ArgList", [("l_paren_token", .token .lParen), ("args", .children exprs),
    ("triple_dot_token", .token .tripleDot), ("r_paren_token", .token .rParen)]),
  ("TableSep", [("semicolon_token", .token .semicolon)]),
  ("ParenExpr", [("l_paren_token", .token .lParen), ("expr", .child exprs), ("r_paren_token", .token .rParen)]),
  ("KeyValue", [("key", .child (.enum [.index, .name])), ("value", .child exprs)]),
  ("PositionalValue", [("expr", .child exprs)]),
  ("Index", [("l_brack_token", .token .lBracket), ("expr", .child exprs), ("r_brack_token", .token .rBracket)]),
  ("IdentKey", [("ident_token", .token .ident)])]

/-- The casts the code generator makes for Lua, written out. -/
private def casts : List (String × Casts) := [
  ("Name", (.struct .name)), ("NameRef", (.struct .nameRef)), ("MultiName", (.struct .multiName)),
  ("SourceFile", (.struct .sourceFile)), ("Block", (.struct .block)), ("AssignStmt", (.struct .assignStmt)),
  ("LocalAssignStmt", (.struct .localAssignStmt)), ("LocalFunctionDefStmt", (.struct .localFunctionDefStmt)),
  ("FunctionDefStmt", (.struct .functionDefStmt)), ("ForStmt", (.struct .forStmt)), ("IfStmt", (.struct .ifStmt)),
  ("ReturnStmt", (.struct .returnStmt)), ("WhileStmt", (.struct .whileStmt)), ("ExprStmt", (.struct .exprStmt)),
  ("BreakStmt", (.struct .breakStmt)), ("RepeatUntilStmt", (.struct .repeatUntilStmt)),
  ("LabelStmt", (.struct .labelStmt)), ("GotoStmt", (.struct .gotoStmt)), ("LabelDelim", (.struct .labelDelim)),
  ("DoStmt", (.struct .doStmt)), ("ParamList", (.struct .paramList)), ("FunctionMethod", (.struct .functionMethod)),
  ("FunctionStatic", (.struct .functionStatic)), ("IndexPath", (.struct .indexPath)),
  ("MultivalExpr", (.struct .multivalExpr)), ("ElseBranch", (.struct .elseBranch)),
  ("ElseIfBranch", (.struct .elseIfBranch)), ("NumericFor", (.struct .numericFor)),
  ("GenericFor", (.struct .genericFor)), ("Literal", (.struct .literal)), ("TableExpr", (.struct .tableExpr)),
  ("InfixExpr", (.struct .infixExpr)), ("PrefixExpr", (.struct .prefixExpr)), ("IndexExpr", (.struct .indexExpr)),
  ("DotExpr", (.struct .dotExpr)), ("FunctionExpr", (.struct .functionExpr)), ("CallExpr", (.struct .callExpr)),
  ("MethodCallExpr", (.struct .methodCallExpr)), ("CallArgs", (.struct .callArgs)), ("ArgList", (.struct .argList)),
  ("TableSep", (.struct .tableSep)), ("ParenExpr", (.struct .parenExpr)), ("KeyValue", (.struct .keyValue)),
  ("PositionalValue", (.struct .positionalValue)), ("Index", (.struct .index)), ("IdentKey", (.struct .identKey)),
  ("Stmt", stmts), ("StmtItem", (.enum [.localAssignStmt, .localFunctionDefStmt, .functionDefStmt])),
  ("FunctionDefContent", (.enum [.functionMethod, .functionStatic, .name])), ("Expr", exprs),
  ("ForContent", (.enum [.numericFor, .genericFor])), ("TableContent", (.enum [.keyValue, .positionalValue])),
  ("TableKey", (.enum [.index, .name]))]

private theorem lua_lowers : lower luaGrammar = .ok luaSrc := by
  have : (lower luaGrammar).toOption.isSome = true := by decide +kernel
  unfold luaSrc
  split
  · rename_i h; exact h
  · rename_i h; rw [h] at this; simp [Except.toOption] at this

private theorem lua_structs : genStructs luaKinds luaSrc = some structs := by decide +kernel

private theorem lua_casts : genCasts luaSrc = some casts := by decide +kernel

private theorem lua_fromKeyword (s : Text) : genFromKeyword luaKinds s = SyntaxKind.fromKeyword s := by
  by_cases h : s ∈ luaKinds.keywords.map (·.toList)
  · have : ∀ w ∈ luaKinds.keywords.map (·.toList), genFromKeyword luaKinds w = SyntaxKind.fromKeyword w := by
      decide +kernel
    exact this s h
  · have h1 : genFromKeyword luaKinds s = none := by
      unfold genFromKeyword
      rw [List.find?_eq_none.mpr]
      intro p hp e
      simp at e
      exact h (by rw [← e]; exact List.mem_map_of_mem (f := fun p : String => p.toList) hp)
    rw [h1]
    have hne : ∀ k ∈ luaKinds.keywords.map (·.toList), s ≠ k := fun k hk e => h (e ▸ hk)
    unfold SyntaxKind.fromKeyword
    rw [if_neg (hne _ (by decide)), if_neg (hne _ (by decide)), if_neg (hne _ (by decide)),
      if_neg (hne _ (by decide)), if_neg (hne _ (by decide)), if_neg (hne _ (by decide)),
      if_neg (hne _ (by decide)), if_neg (hne _ (by decide)), if_neg (hne _ (by decide)),
      if_neg (hne _ (by decide)), if_neg (hne _ (by decide)), if_neg (hne _ (by decide)),
      if_neg (hne _ (by decide)), if_neg (hne _ (by decide)), if_neg (hne _ (by decide)),
      if_neg (hne _ (by decide)), if_neg (hne _ (by decide)), if_neg (hne _ (by decide)),
      if_neg (hne _ (by decide)), if_neg (hne _ (by decide)), if_neg (hne _ (by decide)),
      if_neg (hne _ (by decide))]

/-- **C113**: what the code generator makes of `lua.ungram` and `ast_src.toml` is what is checked in: the kinds and their
order, the macro `T!`, the classification of kinds, `from_keyword`, the structs with their accessors and casts, and the token
types. -/
theorem C113_checked_in :
    ∃ src ss cs ts, lower luaGrammar = .ok src ∧ genKinds luaKinds src = SyntaxKind.variantNames ∧
      genMacroT luaKinds = checkedInT ∧
      genStructs luaKinds src = some ss ∧
      ss.map (fun s => (s.1, s.2.map fun m => (m.1, m.2.run))) = checkedInStructs ∧
      genCasts src = some cs ∧ cs.map (fun c => (c.1, c.2.can)) = checkedInCasts ∧
      genTokens luaKinds = some ts ∧ ts.map (fun t => (t.1, fun k => k == t.2)) = checkedInTokens ∧
      (∀ k, isOneOf (luaKinds.keywords.map keywordKind) k = k.isKeyword) ∧
      (∀ k, isOneOf (luaKinds.punct.map (·.2)) k = k.isPunct) ∧
      (∀ k, isOneOf (luaKinds.literals.map camel) k = k.isLiteral) ∧
      (∀ k, isOneOf luaKinds.trivia k = k.isTrivia) ∧
      ∀ s, genFromKeyword luaKinds s = SyntaxKind.fromKeyword s := by
  refine ⟨luaSrc, structs, casts, [("Error", .error), ("Ident", .ident), ("Shebang", .shebang), ("Number", .number),
    ("Str", .str), ("True", .trueLit), ("False", .falseLit), ("Comment", .comment), ("Whitespace", .whitespace)],
    lua_lowers, by decide +kernel, by decide +kernel, lua_structs, ?_, lua_casts, ?_, by decide +kernel, ?_,
    fun k => (by decide +kernel : ∀ k ∈ SyntaxKind.all, isOneOf (luaKinds.keywords.map keywordKind) k = k.isKeyword) k
      (mem_all k),
    fun k => (by decide +kernel : ∀ k ∈ SyntaxKind.all, isOneOf (luaKinds.punct.map (·.2)) k = k.isPunct) k
      (mem_all k),
    fun k => (by decide +kernel : ∀ k ∈ SyntaxKind.all, isOneOf (luaKinds.literals.map camel) k = k.isLiteral) k
      (mem_all k),
    fun k => (by decide +kernel : ∀ k ∈ SyntaxKind.all, isOneOf luaKinds.trivia k = k.isTrivia) k (mem_all k),
    lua_fromKeyword⟩
  · rfl
  · rfl
  · rfl

/-! The accessors of Lua. -/

private theorem lua_clean : ∀ p ∈ luaGrammar, p.1 ∉ ["LabelStmt", "MethodCallExpr"] → lowerEnum p.2 = none →
    cleanRule p.2 = true := by decide +kernel

private theorem lower_nodes : ∀ {g : Grammar} {src : AstSrc}, lower g = .ok src → ∀ p ∈ g, lowerEnum p.2 = none →
    ∃ fields, lowerRule none p.2 = .ok fields ∧ (p.1, fields) ∈ src.nodes
  | [], _, _, p, hp, _ => by simp at hp
  | (name, rule) :: g, src, h, p, hp, he => by
    simp only [lower] at h
    split at h
    · rename_i hv
      split at h
      · simp at h
      rename_i src' hs
      simp only [Except.ok.injEq] at h
      subst h
      rcases List.mem_cons.1 hp with rfl | hp
      · rw [he] at hv; simp at hv
      · exact lower_nodes hs p hp he
    · split at h
      · simp at h
      rename_i fields hf
      split at h
      · simp at h
      rename_i src' hs
      simp only [Except.ok.injEq] at h
      subst h
      rcases List.mem_cons.1 hp with rfl | hp
      · exact ⟨fields, hf, by simp⟩
      · obtain ⟨fields', h1, h2⟩ := lower_nodes hs p hp he
        exact ⟨fields', h1, by simp [h2]⟩

/-- **C113**: the accessors of the structs in nodes.rs return what `lua.ungram` says.  Excepted are `LabelStmt` and
`MethodCallExpr`; and of the contents of a table only the first is returned (`expected`). -/
theorem C113_lua (name : String) (rule : Rule) (hr : (name, rule) ∈ luaGrammar)
    (hn : name ∉ ["LabelStmt", "MethodCallExpr"]) (he : lowerEnum rule = none) :
    ∃ methods, (name, methods) ∈ checkedInStructs ∧
      ∀ (node : Red) (items : List Slot), Sentence none .one rule items → Fill luaKinds luaSrc items (parts node) →
        (∀ z ∈ items.zip (parts node), z.1.role ≠ .hidden → ∃ f, (z.1.accessor luaKinds, f) ∈ methods ∧
          f node = expected luaKinds items (parts node) z.1 ∧ (z.1.role = .one → f node = .one (some z.2))) ∧
        ∀ m ∈ methods, ∀ p ∈ returned (m.2 node), ∃ it, (it, p) ∈ items.zip (parts node) ∧ it.role ≠ .hidden ∧
          it.accessor luaKinds = m.1 := by
  obtain ⟨fields, hf, hm⟩ := lower_nodes lua_lowers _ hr he
  have hc := lua_clean _ hr hn he
  simp only [cleanRule, hf] at hc
  split at hc
  · rename_i ms hg
    have hs : (name, ms) ∈ structs := by
      obtain ⟨h1, -, -⟩ := mapM_mem lua_structs
      obtain ⟨b, hb, e⟩ := h1 _ hm
      simp only [hg, Option.map_some, Option.some.injEq] at e
      subst e; exact hb
    have hst : structs.map (fun s => (s.1, s.2.map fun m => (m.1, m.2.run))) = checkedInStructs := rfl
    refine ⟨ms.map fun m => (m.1, m.2.run), by rw [← hst]; exact List.mem_map_of_mem (f := fun s : String × List (String × Accessor) => (s.1, s.2.map fun m => (m.1, m.2.run))) hs, fun node items hsen hfill => ?_⟩
    simp only [clean, Bool.and_eq_true, List.all_eq_true] at hc
    obtain ⟨⟨c1, c2⟩, c3⟩ := hc
    obtain ⟨k1, k2⟩ := C113_accessors luaKinds luaSrc rule fields ms hf hg node items hsen hfill
      ((pairwiseB_spec c1).imp fun h p _ hab => apart_spec h p.green.isNode p.kind
        ⟨(accepts_iff _ _).1 hab.1, (accepts_iff _ _).1 hab.2⟩)
      (fun z hz hrole m hm' hacc => by
        have hz' : z.1.Fits luaKinds luaSrc z.2 := (fill_zip hfill).2.2 z hz
        have hi : z.1 ∈ items := (fill_zip hfill).1 ▸ List.mem_map_of_mem hz
        exact apart_spec (c2 _ (hidden_symbol hsen z.1 hi hrole) m hm') z.2.green.isNode z.2.kind
          ⟨symbolFits_of hz', (accepts_iff _ _).1 hacc⟩)
      (fun m hm' k e => by have := c3 m hm'; rw [e] at this; simpa using this)
    refine ⟨fun z hz hv => ?_, fun m hm' p hp => ?_⟩
    · obtain ⟨a, h1, h2, h3⟩ := k1 z hz hv
      exact ⟨a.run, List.mem_map.2 ⟨_, h1, rfl⟩, h2, h3⟩
    · obtain ⟨m', hm'', rfl⟩ := List.mem_map.1 hm'
      exact k2 m' hm'' p hp
  · simp at hc

/-! Examples, and the two rules that are excepted. -/

private theorem fits_of {it : Slot} {p : Red} (h : symbolFits it.symbol p.green.isNode p.kind = true) :
    it.Fits luaKinds luaSrc p := by
  unfold symbolFits at h
  unfold Slot.Fits
  cases hs : it.symbol with
  | node n =>
    rw [hs] at h
    cases hc : castsOf luaSrc n with
    | none => simp [hc] at h
    | some c => simp only [hc, Bool.and_eq_true] at h; exact ⟨h.1, c, hc, h.2⟩
  | token t =>
    rw [hs] at h
    cases hc : ((genMacroT luaKinds).lookup (quoteBracket t)).bind kindNamed with
    | none => simp [hc] at h
    | some k => simp only [hc, Bool.and_eq_true, beq_iff_eq] at h; exact ⟨by simpa using h.1, by rw [h.2]; exact hc⟩

private def fillB : List Slot → List Red → Bool
  | [], [] => true
  | it :: its, p :: ps => symbolFits it.symbol p.green.isNode p.kind && fillB its ps
  | _, _ => false

private theorem fill_of : ∀ {its : List Slot} {ps : List Red}, fillB its ps = true → Fill luaKinds luaSrc its ps
  | [], [], _ => .nil
  | it :: its, p :: ps, h => by
    simp only [fillB, Bool.and_eq_true] at h
    exact .cons (fits_of h.1) (fill_of h.2)
  | [], _ :: _, h => by simp [fillB] at h
  | _ :: _, [], h => by simp [fillB] at h

/-- The node of a kind in one of the programs of AstExamples. -/
private def nodeIn (tree : Green) (k : SyntaxKind) : Red := (firstOf k 40 (Red.root tree)).getD (Red.root (.node .error []))

/-- `C113_lua` applies to the list of names of `local a,b=1,-2`. -/
example : ∃ rule items, ("MultiName", rule) ∈ luaGrammar ∧ lowerEnum rule = none ∧ Sentence none .one rule items ∧
    Fill luaKinds luaSrc items (parts (nodeIn program1 .multiName)) ∧
    items.map (·.role) = [.many, .hidden, .many] :=
  ⟨_, _, .tail _ (.tail _ (.head _)), rfl,
    .list (tail := []) [[⟨.token ",", none, .hidden⟩]] (.plain "Name" (.token ",")) (fun p hp => by
      simp only [List.mem_singleton] at hp; subst hp; exact .token none .hidden ",")
      (.seq (fun _ _ _ _ h => by cases h) (.nil _ _)),
    fill_of (by decide +kernel), rfl⟩

private theorem not_list {r : Rule} {rs : List Rule} (h : ∀ n, r ≠ .node n) : ∀ n sep o last, ¬ ListRule (r :: rs) n sep o last := by
  intro n sep o last hl
  cases hl <;> exact h _ rfl

/-- `C113_lua` applies to the loop `while a do end`. -/
example : ∃ rule items, ("WhileStmt", rule) ∈ luaGrammar ∧ lowerEnum rule = none ∧ Sentence none .one rule items ∧
    Fill luaKinds luaSrc items (parts (nodeIn program3 .whileStmt)) ∧
    items.map (·.accessor luaKinds) = ["while_token", "cond", "do_token", "body", "end_token"] :=
  ⟨.seq [.token "while", .labeled "cond" (.node "Expr"), .token "do", .labeled "body" (.node "Block"), .token "end"],
    _, by simp [luaGrammar], rfl,
    .seq (not_list (by simp)) (.cons (.token ..) (.cons (.labeled (.node ..)) (.cons (.token ..) (.cons (.labeled (.node ..))
      (.cons (.token ..) (.nil ..)))))),
    fill_of (by decide +kernel), by decide +kernel⟩

/-- **C113 fails** for `LabelStmt`: `::l::` follows its rule, but the accessor for the second delimiter returns the first. -/
theorem C113_label_fails : ∃ (rule : Rule) (items : List Slot) (r : Red), ("LabelStmt", rule) ∈ luaGrammar ∧
    NodeOf "function m.n:o()end function p.q()end function g()end goto l ::l:: break".toList .labelStmt r ∧
    Sentence none .one rule items ∧ Fill luaKinds luaSrc items (parts r) ∧
    ∃ z ∈ items.zip (parts r), z.1.accessor luaKinds = "finish" ∧ z.1.role = .one ∧ Ast.LabelStmt.finish r ≠ some z.2 := by
  refine ⟨.seq [.labeled "start" (.node "LabelDelim"), .node "Name", .labeled "finish" (.node "LabelDelim")], _,
    nodeIn program2 .labelStmt, by simp [luaGrammar], nodeOf_firstD program2_parses (by decide +kernel),
    .seq (not_list (by simp)) (.cons (.labeled (.node ..)) (.cons (.node ..) (.cons (.labeled (.node ..)) (.nil ..)))),
    fill_of (by decide +kernel), ?_⟩
  exact ⟨(⟨.node "LabelDelim", some "finish", .one⟩, (parts (nodeIn program2 .labelStmt))[2]'(by decide +kernel)),
    .tail _ (.tail _ (.head _)), by decide +kernel, rfl, by decide +kernel⟩

/-- **C113 fails** for `MethodCallExpr`: `a:b()` follows its rule, but the accessor for the name returns `a`. -/
theorem C113_method_fails : ∃ (rule : Rule) (items : List Slot) (r : Red), ("MethodCallExpr", rule) ∈ luaGrammar ∧
    NodeOf "f(1)\"s\"{} a:b() return(a)+b".toList .methodCallExpr r ∧
    Sentence none .one rule items ∧ Fill luaKinds luaSrc items (parts r) ∧
    ∃ z ∈ items.zip (parts r), z.1.accessor luaKinds = "name_ref" ∧ z.1.role = .one ∧
      Ast.MethodCallExpr.nameRef r ≠ some z.2 := by
  refine ⟨.seq [.labeled "fun" (.node "Expr"), .token ":", .node "NameRef", .node "CallArgs"], _,
    nodeIn program5 .methodCallExpr, by simp [luaGrammar], nodeOf_firstD program5_parses (by decide +kernel),
    .seq (not_list (by simp)) (.cons (.labeled (.node ..)) (.cons (.token ..) (.cons (.node ..) (.cons (.node ..) (.nil ..))))),
    fill_of (by decide +kernel), ?_⟩
  exact ⟨(⟨.node "NameRef", none, .one⟩, (parts (nodeIn program5 .methodCallExpr))[2]'(by decide +kernel)),
    .tail _ (.tail _ (.head _)), by decide +kernel, rfl, by decide +kernel⟩

end Verif.Codegen
