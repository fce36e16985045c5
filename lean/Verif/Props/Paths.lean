import Verif.Model.Paths
import Verif.Spec.PathSpec

/-
C49: path normalization.  C61: operations on absolute paths give absolute paths and do not panic.
-/
namespace Verif
namespace Paths
open PathSpec

theorem segments_ne (p : Text) : segments p ≠ [] := by
  cases p with
  | nil => simp [segments]
  | cons c cs =>
    simp only [segments]
    split
    · simp
    · split <;> simp

theorem segments_splitFront : ∀ p : Text, segments p = match splitFront p with
    | (name, none) => [name]
    | (name, some rest) => name :: segments rest := by
  intro p
  induction p with
  | nil => simp [segments, splitFront]
  | cons c cs ih =>
    simp only [segments, splitFront]
    by_cases hc : c = '/'
    · simp [hc]
    · simp only [hc, if_false]
      rw [ih]
      rcases h : splitFront cs with ⟨name, _ | rest⟩ <;> simp

private theorem segment_no_sep : ∀ (p s : Text), s ∈ segments p → '/' ∉ s := by
  intro p
  induction p with
  | nil => intro s hs; simp [segments] at hs; simp [hs]
  | cons c cs ih =>
    intro s hs
    simp only [segments] at hs
    split at hs
    · rcases List.mem_cons.1 hs with rfl | hs
      · simp
      · exact ih s hs
    · rename_i hc
      split at hs
      · rename_i s' ss h
        rcases List.mem_cons.1 hs with rfl | hs
        · have := ih s' (by rw [h]; simp)
          simp [this, Ne.symm hc]
        · exact ih s (by rw [h]; simp [hs])
      · exact absurd ‹_› (segments_ne cs)

private theorem splitFront_lt : ∀ (p : Text) (name rest : Text), splitFront p = (name, some rest) →
    rest.length < p.length := by
  intro p
  induction p with
  | nil => intro n r h; simp [splitFront] at h
  | cons c cs ih =>
    intro n r h
    simp only [splitFront] at h
    split at h
    · simp at h; simp [← h.2]
    · simp only [Prod.mk.injEq] at h
      have := ih (splitFront cs).1 r (by rw [← h.2])
      simp; omega

theorem bodyComponents_eq (p : Text) : bodyComponents p = (segments p).filterMap parseSingle := by
  suffices H : ∀ (fuel : Nat) (p : Text), p.length < fuel → bodyFuel fuel p = (segments p).filterMap parseSingle from
    H _ _ (Nat.lt_succ_self _)
  intro fuel
  induction fuel with
  | zero => intro p h; omega
  | succ fuel ih =>
    intro p h
    rw [bodyFuel, segments_splitFront]
    rcases hs : splitFront p with ⟨name, _ | rest⟩
    · cases hp : parseSingle name <;> simp [hp]
    · have := splitFront_lt p name rest hs
      simp only
      rw [ih rest (by omega)]
      cases hp : parseSingle name <;> simp [hp]

theorem splitFront_none {n : Text} (h : '/' ∉ n) : splitFront n = (n, none) := by
  induction n with
  | nil => rfl
  | cons c cs ih =>
    simp only [List.mem_cons, not_or] at h
    simp [splitFront, Ne.symm h.1, ih h.2]

private theorem splitFront_some {n : Text} (h : '/' ∉ n) (r : Text) :
    splitFront (n ++ '/' :: r) = (n, some r) := by
  induction n with
  | nil => simp [splitFront]
  | cons c cs ih =>
    simp only [List.mem_cons, not_or] at h
    simp [splitFront, Ne.symm h.1, ih h.2]

theorem parseSingle_name {n : Text} (h : IsName n) : parseSingle n = some (.normal n) := by
  obtain ⟨h1, h2, h3, _⟩ := h
  simp [parseSingle, h1, h2, h3]

private theorem canonical_abs (ns : List Text) : isAbsolute (canonical ns) = true := by
  unfold canonical
  split
  · rfl
  · cases ns with
    | nil => contradiction
    | cons n ns => simp [isAbsolute]

private theorem canonical_snoc (ns : List Text) (n : Text) :
    canonical (ns ++ [n]) = ns.flatMap ('/' :: ·) ++ '/' :: n := by
  simp [canonical]

private theorem flatMap_last {ns : List Text} (h : ∀ n ∈ ns, IsName n) (hne : ns ≠ []) :
    (ns.flatMap ('/' :: ·)).getLast? ≠ some '/' := by
  rcases List.eq_nil_or_concat ns with rfl | ⟨ns, n, rfl⟩
  · exact absurd rfl hne
  · obtain ⟨h1, _, _, h4⟩ := h n (by simp)
    simp only [List.concat_eq_append, List.flatMap_append, List.flatMap_cons, List.flatMap_nil, List.append_nil]
    rw [List.getLast?_append, List.getLast?_cons, Option.some_or]
    intro e
    apply h4
    cases hn : n.getLast? with
    | none => simp at hn; exact absurd hn h1
    | some c =>
      rw [hn] at e
      simp at e
      exact e ▸ List.mem_of_getLast? hn

private theorem push_name {ns : List Text} {n : Text} (h : ∀ m ∈ ns, IsName m) (hn : IsName n) :
    push (canonical ns) n = canonical (ns ++ [n]) := by
  obtain ⟨h1, _, _, h4⟩ := hn
  have hna : isAbsolute n = false := by
    cases n with
    | nil => rfl
    | cons c cs => simp only [List.mem_cons, not_or] at h4; simp [isAbsolute]; exact fun e => h4.1 e.symm
  rw [canonical_snoc]
  by_cases hs : ns = []
  · subst hs; simp [push, hna, canonical]
  · have := flatMap_last h hs
    have hc : canonical ns = ns.flatMap ('/' :: ·) := by simp [canonical, hs]
    have hne : ns.flatMap ('/' :: ·) ≠ [] := by cases ns <;> simp at hs ⊢
    unfold push
    rw [hna, hc]
    simp only [Bool.false_eq_true, if_false]
    rw [if_pos ⟨hne, this⟩]

private theorem trimRight_keeps {ns : List Text} (h : ∀ m ∈ ns, IsName m) (k : Nat) :
    trimRight (k + 1) ((ns.flatMap ('/' :: ·)).drop 1).reverse = ((ns.flatMap ('/' :: ·)).drop 1).reverse := by
  rcases List.eq_nil_or_concat ns with rfl | ⟨ms, m, rfl⟩
  · simp [trimRight]
  · have hm := h m (by simp)
    have hsep : '/' ∉ m.reverse := by simpa using hm.2.2.2
    have e : (((ms.concat m).flatMap ('/' :: ·)).drop 1).reverse =
        m.reverse ++ (if ms = [] then [] else '/' :: ((ms.flatMap ('/' :: ·)).drop 1).reverse) := by
      cases ms with
      | nil => simp
      | cons a as => simp
    rw [e]
    have hne : m.reverse ≠ [] := by simpa using hm.1
    have hl : ∀ r, lastReversed (m.reverse ++ (if ms = [] then [] else '/' :: r)) = (some (.normal m), if ms = [] then [] else r) := by
      intro r
      by_cases hs : ms = []
      · simp [hs, lastReversed, splitFront_none hsep, parseSingle_name hm]
      · simp [hs, lastReversed, splitFront_some hsep, parseSingle_name hm]
    simp only [trimRight, hl]
    rw [if_neg (by simp [hm.1])]

private theorem pop_name {ns : List Text} {n : Text} (h : ∀ m ∈ ns, IsName m) (hn : IsName n) :
    pop (canonical (ns ++ [n])) = canonical ns := by
  have hsep : '/' ∉ n.reverse := by simpa using hn.2.2.2
  have habs := canonical_abs (ns ++ [n])
  have hcur : includeCurDir (canonical (ns ++ [n])) = false := by simp [includeCurDir, habs]
  have hlen : lenBeforeBody (canonical (ns ++ [n])) = 1 := by simp [lenBeforeBody, habs]
  have e : ((canonical (ns ++ [n])).drop 1).reverse =
      n.reverse ++ (if ns = [] then [] else '/' :: ((ns.flatMap ('/' :: ·)).drop 1).reverse) := by
    rw [canonical_snoc]
    cases ns with
    | nil => simp
    | cons a as => simp
  have hb : ∀ k, nextBack (k + 1) ((canonical (ns ++ [n])).drop 1).reverse =
      some (if ns = [] then [] else ((ns.flatMap ('/' :: ·)).drop 1).reverse) := by
    intro k
    rw [e]
    have hl : ∀ r, lastReversed (n.reverse ++ (if ns = [] then [] else '/' :: r)) = (some (.normal n), if ns = [] then [] else r) := by
      intro r
      by_cases hs : ns = []
      · simp [hs, lastReversed, splitFront_none hsep, parseSingle_name hn]
      · simp [hs, lastReversed, splitFront_some hsep, parseSingle_name hn]
    simp only [nextBack, hl]
    rw [if_neg (by simp [hn.1])]
  have ht : (canonical (ns ++ [n])).take 1 = ['/'] := by
    rw [canonical_snoc]; cases ns <;> simp
  have hp : parent (canonical (ns ++ [n])) = some (canonical ns) := by
    unfold parent
    rw [hlen]
    simp only [hb, ht]
    by_cases hs : ns = []
    · subst hs; simp [trimRight, canonical]
    · rw [if_neg hs, trimRight_keeps h]
      cases ns with
      | nil => contradiction
      | cons a as => simp [canonical]
  unfold pop
  rw [hp]
  rw [canonical_snoc]
  by_cases hs : ns = []
  · subst hs; simp [canonical]
  · simp [canonical, hs]

private theorem pop_root : pop ['/'] = ['/'] := by decide

/-- one component of the loop, as a step of the specification -/
private theorem fold_step {ns : List Text} (h : ∀ m ∈ ns, IsName m) {s : Text} (hs : '/' ∉ s) :
    (∀ m ∈ go ns s, IsName m) ∧
    (match parseSingle s with
      | some c => normalizeStep (canonical ns) c
      | none => canonical ns) = canonical (go ns s) := by
  unfold go parseSingle
  by_cases h1 : s = ['.']
  · simp [h1]; exact h
  · by_cases h2 : s = ['.', '.']
    · subst h2
      refine ⟨by simpa using fun m hm => h m ((List.dropLast_sublist ns).subset hm), ?_⟩
      simp only [normalizeStep, if_true, List.cons_ne_nil, List.cons.injEq, and_false, if_false, or_self]
      rcases List.eq_nil_or_concat ns with rfl | ⟨ms, m, rfl⟩
      · exact pop_root
      · rw [List.concat_eq_append, pop_name (fun x hx => h x (by simp [hx])) (h m (by simp))]
        simp
    · by_cases h3 : s = []
      · subst h3; simpa using h
      · have hn : IsName s := ⟨h3, h1, h2, hs⟩
        simp only [h1, h2, h3, if_false, or_self, normalizeStep]
        refine ⟨?_, push_name h hn⟩
        intro m hm
        rcases List.mem_append.1 hm with hm | hm
        · exact h m hm
        · simp at hm; exact hm ▸ hn

private theorem fold_body : ∀ (ss : List Text) (ns : List Text), (∀ m ∈ ns, IsName m) → (∀ s ∈ ss, '/' ∉ s) →
    (∀ m ∈ ss.foldl go ns, IsName m) ∧
    (ss.filterMap parseSingle).foldl normalizeStep (canonical ns) = canonical (ss.foldl go ns) := by
  intro ss
  induction ss with
  | nil => intro ns h _; simpa using h
  | cons s ss ih =>
    intro ns h hs
    obtain ⟨h1, h2⟩ := fold_step h (hs s (by simp))
    obtain ⟨i1, i2⟩ := ih (go ns s) h1 (fun x hx => hs x (by simp [hx]))
    refine ⟨i1, ?_⟩
    rw [List.foldl_cons, ← i2, ← h2]
    cases hp : parseSingle s <;> simp [hp]

private theorem segments_cons_sep (p : Text) : segments ('/' :: p) = [] :: segments p := by simp [segments]

private theorem place_cons_sep (p : Text) : place ('/' :: p) = place p := by
  simp [place, segments_cons_sep, go]

theorem abs_cons {p : Text} (h : isAbsolute p = true) : ∃ q, p = '/' :: q := by
  cases p with
  | nil => simp [isAbsolute] at h
  | cons c cs => simp [isAbsolute] at h; exact ⟨cs, by rw [h]⟩

theorem segments_append (a b : Text) : segments (a ++ '/' :: b) = segments a ++ segments b := by
  induction a with
  | nil => simp [segments]
  | cons c cs ih =>
    simp only [List.cons_append, segments]
    split
    · simp [ih]
    · rw [ih]
      cases hs : segments cs with
      | nil => exact absurd hs (segments_ne cs)
      | cons x xs => simp

/-- The place of a path is reached through proper names: no empty name, no `.` or `..`, no separator. -/
theorem C49_place_names (p : Text) : ∀ n ∈ place p, IsName n :=
  (fold_body (segments p) [] (by simp) (fun s hs => segment_no_sep p s hs)).1

/-- **C49** The normalized path is the canonical path to the place the path denotes. -/
theorem C49_normalize {p : Text} (h : isAbsolute p = true) : absNormalize p = canonical (place p) := by
  obtain ⟨q, rfl⟩ := abs_cons h
  rw [place_cons_sep]
  unfold absNormalize normalizePath components
  rw [if_pos h, List.drop_one, List.tail_cons, bodyComponents_eq, List.foldl_cons]
  have := (fold_body (segments q) [] (by simp) (fun s hs => segment_no_sep q s hs)).2
  exact this

private theorem segments_name {n : Text} (h : '/' ∉ n) (r : Text) :
    segments (n ++ '/' :: r) = n :: segments r := by
  rw [segments_splitFront, splitFront_some h]

private theorem segments_names : ∀ ns : List Text, (∀ n ∈ ns, IsName n) → ns ≠ [] →
    segments (ns.flatMap ('/' :: ·)) = [] :: ns := by
  intro ns
  induction ns with
  | nil => intro _ h; exact absurd rfl h
  | cons n ns ih =>
    intro h _
    simp only [List.flatMap_cons, List.cons_append, segments_cons_sep]
    have hsep := (h n (by simp)).2.2.2
    by_cases hs : ns = []
    · subst hs
      rw [List.flatMap_nil, List.append_nil, segments_splitFront, splitFront_none hsep]
    · have := ih (fun m hm => h m (by simp [hm])) hs
      cases ns with
      | nil => contradiction
      | cons m ms =>
        simp only [List.flatMap_cons, List.cons_append] at this ⊢
        rw [segments_name hsep]
        rw [segments_cons_sep] at this
        rw [(List.cons.inj this).2]

private theorem go_names : ∀ (ns acc : List Text), (∀ n ∈ ns, IsName n) → ns.foldl go acc = acc ++ ns := by
  intro ns
  induction ns with
  | nil => simp
  | cons n ns ih =>
    intro acc h
    obtain ⟨h1, h2, h3, _⟩ := h n (by simp)
    rw [List.foldl_cons, ih _ (fun m hm => h m (by simp [hm]))]
    simp [go, h1, h2, h3]

private theorem place_canonical {ns : List Text} (h : ∀ n ∈ ns, IsName n) : place (canonical ns) = ns := by
  by_cases hs : ns = []
  · subst hs; decide
  · simp only [canonical, hs, if_false, place, segments_names ns h hs, List.foldl_cons]
    rw [go_names ns _ h]
    simp [go]

/-- **C49** Normalizing keeps an absolute path absolute and keeps the place it denotes; normalizing again
changes nothing. -/
theorem C49_normalize_stable {p : Text} (h : isAbsolute p = true) :
    isAbsolute (absNormalize p) = true ∧ place (absNormalize p) = place p ∧
    absNormalize (absNormalize p) = absNormalize p := by
  rw [C49_normalize h]
  refine ⟨canonical_abs _, place_canonical (C49_place_names p), ?_⟩
  rw [C49_normalize (canonical_abs _), place_canonical (C49_place_names p)]

/-- **C49** Two absolute paths have the same normal form exactly when they denote the same place. -/
theorem C49_normal_forms {p q : Text} (hp : isAbsolute p = true) (hq : isAbsolute q = true) :
    absNormalize p = absNormalize q ↔ place p = place q := by
  constructor
  · intro h
    rw [← (C49_normalize_stable hp).2.1, h, (C49_normalize_stable hq).2.1]
  · intro h
    rw [C49_normalize hp, C49_normalize hq, h]

/-- **C49** A normalized path has no `.` or `..`, no repeated and no trailing separators. -/
theorem C49_no_dots {p : Text} (h : isAbsolute p = true) :
    absNormalize p = ['/'] ∨ ∃ names, segments (absNormalize p) = [] :: names ∧ names ≠ [] ∧ ∀ n ∈ names, IsName n := by
  rw [C49_normalize h]
  by_cases hs : place p = []
  · left; simp [canonical, hs]
  · right
    refine ⟨place p, ?_, hs, C49_place_names p⟩
    simp only [canonical, hs, if_false]
    exact segments_names _ (C49_place_names p) hs

/-- The hypothesis is met, with all the features the documentation of `normalize` lists. -/
example : isAbsolute "/a/../../b/.//c//".toList = true ∧
    absNormalize "/a/../../b/.//c//".toList = "/b/c".toList ∧
    place "/a/../../b/.//c//".toList = ["b".toList, "c".toList] := by
  refine ⟨by decide, ?_, by decide⟩
  rw [C49_normalize (by decide)]
  decide

/-- **C61** The parent of an absolute path is absolute: `AbsPath::parent` does not panic. -/
theorem C61_parent {p : Text} (h : isAbsolute p = true) :
    ∃ r, absParent p = some r ∧ ∀ q, r = some q → isAbsolute q = true := by
  have hcur : includeCurDir p = false := by simp [includeCurDir, h]
  have hlen : lenBeforeBody p = 1 := by simp [lenBeforeBody, h]
  obtain ⟨s, rfl⟩ := abs_cons h
  have key : ∀ q, parent ('/' :: s) = some q → isAbsolute q = true := by
    intro q hq
    unfold parent at hq
    rw [hlen] at hq
    simp only at hq
    split at hq
    · simp at hq; rw [← hq]; simp [isAbsolute]
    · simp [hcur] at hq
  unfold absParent
  cases hp : parent ('/' :: s) with
  | none => exact ⟨none, rfl, by simp⟩
  | some q => exact ⟨some q, by simp [absAssert, key q hp], fun q' e => by cases e; exact key _ hp⟩

/-- **C61** Joining any path to an absolute path gives an absolute path: `AbsPath::join` does not panic.  An
absolute second path replaces the first one. -/
theorem C61_join {p : Text} (h : isAbsolute p = true) (q : Text) :
    ∃ r, absJoin p q = some r ∧ isAbsolute r = true ∧ (isAbsolute q = true → r = q) ∧
      (isAbsolute q = false → place r = (segments q).foldl go (place p)) := by
  obtain ⟨s, rfl⟩ := abs_cons h
  by_cases hq : isAbsolute q = true
  · exact ⟨q, by simp [absJoin, push, hq, absAssert], hq, fun _ => rfl, fun e => by simp [hq] at e⟩
  · simp only [Bool.not_eq_true] at hq
    have hr : isAbsolute (push ('/' :: s) q) = true := by
      unfold push
      rw [hq]
      simp only [Bool.false_eq_true, if_false]
      split <;> simp [isAbsolute]
    refine ⟨push ('/' :: s) q, by simp [absJoin, absAssert, hr], hr, fun e => by simp [hq] at e, fun _ => ?_⟩
    unfold push
    rw [hq]
    simp only [Bool.false_eq_true, if_false]
    split
    · unfold place
      rw [segments_append, List.foldl_append]
    · rename_i hc
      have hl : ('/' :: s).getLast? = some '/' := by
        apply Classical.byContradiction
        intro e
        exact hc ⟨by simp, e⟩
      obtain ⟨ys, hys⟩ := List.getLast?_eq_some_iff.1 hl
      rw [hys]
      have h0 : segments (ys ++ ['/']) = segments ys ++ [[]] := by
        have := segments_append ys []
        simpa [segments] using this
      have h1 : ys ++ ['/'] ++ q = ys ++ '/' :: q := by simp
      unfold place
      rw [h0, h1, segments_append, List.foldl_append, List.foldl_append]
      simp [go]

example : isAbsolute "/a/b".toList = true ∧ absJoin "/a/b".toList "../c".toList = some "/a/b/../c".toList ∧
    place "/a/b/../c".toList = ["a".toList, "c".toList] ∧ absParent "/a/b/".toList = some (some "/a".toList) ∧
    absParent "/".toList = some none := by decide

/-! ### relative paths -/

private theorem relative_cons (n : Text) (ns : List Text) : relative (n :: ns) = n ++ ns.flatMap ('/' :: ·) := by
  simp [relative]

private theorem relative_snoc (ns : List Text) (n : Text) :
    relative (ns ++ [n]) = if ns = [] then n else relative ns ++ '/' :: n := by
  cases ns <;> simp [relative]

private theorem relative_plain {ns : List Text} (h : ∀ m ∈ ns, IsName m) :
    isAbsolute (relative ns) = false ∧ includeCurDir (relative ns) = false := by
  cases ns with
  | nil => decide
  | cons n ns =>
    obtain ⟨h1, h2, _, h4⟩ := h n (by simp)
    rw [relative_cons]
    cases n with
    | nil => exact absurd rfl h1
    | cons c cs =>
      simp only [List.mem_cons, not_or] at h4
      have habs : isAbsolute (c :: cs ++ ns.flatMap ('/' :: ·)) = false := by
        simp [isAbsolute]; exact fun e => h4.1 e.symm
      refine ⟨habs, ?_⟩
      unfold includeCurDir
      rw [habs]
      cases cs with
      | nil =>
        have : c ≠ '.' := by rintro rfl; exact h2 rfl
        simp [this, List.isPrefixOf, Ne.symm this]
      | cons d ds =>
        have : '/' ≠ d := fun e => h4.2 (List.mem_cons.2 (.inl e))
        simp [List.isPrefixOf, this]

private theorem relative_ne {ns : List Text} (h : ∀ m ∈ ns, IsName m) (hne : ns ≠ []) :
    relative ns ≠ [] ∧ (relative ns).getLast? ≠ some '/' := by
  have := flatMap_last h hne
  cases ns with
  | nil => contradiction
  | cons n ns =>
    have h1 := (h n (by simp)).1
    rw [relative_cons]
    have hn : n ++ ns.flatMap ('/' :: ·) ≠ [] := by simp [h1]
    refine ⟨hn, ?_⟩
    rw [List.flatMap_cons, List.cons_append, List.getLast?_cons] at this
    cases hl : (n ++ ns.flatMap ('/' :: ·)).getLast? with
    | none => simp
    | some c => rw [hl] at this; simpa using this

private theorem push_rel {ns : List Text} {n : Text} (h : ∀ m ∈ ns, IsName m) (hn : IsName n) :
    push (relative ns) n = relative (ns ++ [n]) := by
  have hna : isAbsolute n = false := by
    have := (relative_plain (ns := [n]) (by simpa using hn)).1
    simpa [relative] using this
  rw [relative_snoc]
  unfold push
  rw [hna]
  by_cases hs : ns = []
  · subst hs; simp [relative]
  · rw [if_pos (relative_ne h hs), if_neg hs]; simp

private theorem pop_rel {ns : List Text} {n : Text} (h : ∀ m ∈ ns, IsName m) (hn : IsName n) :
    pop (relative (ns ++ [n])) = relative ns := by
  have hsep : '/' ∉ n.reverse := by simpa using hn.2.2.2
  have hall : ∀ m ∈ ns ++ [n], IsName m := by
    intro m hm
    rcases List.mem_append.1 hm with hm | hm
    · exact h m hm
    · simp at hm; exact hm ▸ hn
  obtain ⟨habs, hcur⟩ := relative_plain hall
  have hlen : lenBeforeBody (relative (ns ++ [n])) = 0 := by simp [lenBeforeBody, habs, hcur]
  have e : (relative (ns ++ [n])).reverse = n.reverse ++ (if ns = [] then [] else '/' :: (relative ns).reverse) := by
    rw [relative_snoc]
    by_cases hs : ns = []
    · simp [hs]
    · simp [hs]
  have hb : ∀ k, nextBack (k + 1) (relative (ns ++ [n])).reverse = some (relative ns).reverse := by
    intro k
    rw [e]
    have hl : ∀ r, lastReversed (n.reverse ++ (if ns = [] then [] else '/' :: r)) = (some (.normal n), if ns = [] then [] else r) := by
      intro r
      by_cases hs : ns = []
      · simp [hs, lastReversed, splitFront_none hsep, parseSingle_name hn]
      · simp [hs, lastReversed, splitFront_some hsep, parseSingle_name hn]
    simp only [nextBack, hl]
    rw [if_neg (by simp [hn.1])]
    by_cases hs : ns = []
    · subst hs; simp [relative]
    · simp [hs]
  have hp : parent (relative (ns ++ [n])) = some (relative ns) := by
    unfold parent
    rw [hlen]
    simp only [List.take_zero, List.drop_zero, hb]
    rw [show relative ns = (ns.flatMap ('/' :: ·)).drop 1 from rfl, trimRight_keeps h]
    simp
  unfold pop
  rw [hp, relative_snoc]
  by_cases hs : ns = []
  · subst hs; simp [relative]
  · simp [hs]

private theorem fold_rel : ∀ (ss : List Text) (ns : List Text), (∀ m ∈ ns, IsName m) → (∀ s ∈ ss, '/' ∉ s) →
    (ss.filterMap parseSingle).foldl normalizeStep (relative ns) = relative (ss.foldl go ns) := by
  intro ss
  induction ss with
  | nil => intro ns h _; rfl
  | cons s ss ih =>
    intro ns h hs
    have h1 := (fold_step h (hs s (by simp))).1
    rw [List.foldl_cons, ← ih (go ns s) h1 (fun x hx => hs x (by simp [hx]))]
    have hsep := hs s (by simp)
    have hstep : (match parseSingle s with
      | some c => normalizeStep (relative ns) c
      | none => relative ns) = relative (go ns s) := by
      unfold go parseSingle
      by_cases h1 : s = ['.']
      · simp [h1]
      · by_cases h2 : s = ['.', '.']
        · subst h2
          simp only [normalizeStep, if_true, List.cons_ne_nil, List.cons.injEq, and_false, if_false, or_self]
          rcases List.eq_nil_or_concat ns with rfl | ⟨ms, m, rfl⟩
          · decide
          · rw [List.concat_eq_append, pop_rel (fun x hx => h x (by simp [hx])) (h m (by simp))]
            simp
        · by_cases h3 : s = []
          · subst h3; simp
          · have hn : IsName s := ⟨h3, h1, h2, hsep⟩
            simp only [h1, h2, h3, if_false, or_self, normalizeStep]
            exact push_rel h hn
    rw [← hstep]
    cases hp : parseSingle s <;> simp [hp]

/-- **C49** for relative paths: `normalize_path` gives the names along which the path goes, `.` dropped and `..` taking the
name before it away; a `..` with no name before it is dropped. -/
theorem C49_relative {p : Text} (h : isAbsolute p = false) : normalizePath p = relative (place p) := by
  unfold normalizePath components
  rw [if_neg (by simp [h])]
  by_cases hc : includeCurDir p = true
  · rw [if_pos hc, List.foldl_cons, bodyComponents_eq]
    have : ∃ q, p = '.' :: q ∧ (q = [] ∨ ∃ r, q = '/' :: r) := by
      simp only [includeCurDir, h, Bool.not_false, Bool.true_and, Bool.or_eq_true, beq_iff_eq] at hc
      rcases hc with hc | hc
      · exact ⟨[], hc, .inl rfl⟩
      · cases p with
        | nil => simp at hc
        | cons c cs => cases cs with
          | nil => simp at hc
          | cons d ds =>
            simp at hc
            exact ⟨'/' :: ds, by rw [← hc.1, ← hc.2], .inr ⟨ds, rfl⟩⟩
    obtain ⟨q, rfl, hq⟩ := this
    have hrel := fold_rel (segments q) [] (by simp) (fun s hs => segment_no_sep q s hs)
    simp only [List.drop_one, List.tail_cons, normalizeStep]
    rw [show ([] : Text) = relative [] from rfl, hrel]
    congr 1
    rcases hq with rfl | ⟨r, rfl⟩
    · decide
    · have := segments_name (n := ['.']) (by decide) r
      simp only [List.cons_append, List.nil_append] at this
      rw [place, this, segments_cons_sep, List.foldl_cons, List.foldl_cons]
      simp [go]
  · rw [if_neg hc, bodyComponents_eq]
    exact fold_rel (segments p) [] (by simp) (fun s hs => segment_no_sep p s hs)

/-- A relative path need not keep its meaning under `normalize_path`: leading `..` are dropped.  (`AbsPath` does not
expose this.) -/
theorem C49_relative_fails : normalizePath "../a".toList = "a".toList ∧ normalizePath "./a/./b/../c".toList = "a/c".toList := by
  rw [C49_relative (by decide), C49_relative (by decide)]
  decide

/-! ### the parent, exactly -/

theorem splitFront_eq (b : Text) : '/' ∉ (splitFront b).1 ∧
    b = (splitFront b).1 ++ (match (splitFront b).2 with | none => [] | some r => '/' :: r) := by
  induction b with
  | nil => simp [splitFront]
  | cons c cs ih =>
    simp only [splitFront]
    split
    · rename_i hc; simp [hc]
    · rename_i hc
      refine ⟨by simp [ih.1, Ne.symm hc], ?_⟩
      simp only [List.cons_append, List.cons.injEq, true_and]
      exact ih.2

theorem steps_one {n : Text} (h : '/' ∉ n) : steps n = if parseSingle n = none then [] else [n] := by
  rw [steps, segments_splitFront, splitFront_none h]
  unfold parseSingle
  by_cases h1 : n = ['.']
  · simp [h1]
  · by_cases h2 : n = ['.', '.']
    · simp [h2]
    · by_cases h3 : n = []
      · simp [h3]
      · simp [h1, h2, h3]

private theorem last_steps (b : Text) :
    (lastReversed b).2.reverse <+: b.reverse ∧ (b ≠ [] → (lastReversed b).2.length < b.length) ∧
    ∃ n, '/' ∉ n ∧ (lastReversed b).1 = parseSingle n ∧ steps b.reverse = steps (lastReversed b).2.reverse ++ steps n ∧
      (segments b.reverse).getLast? = some n := by
  obtain ⟨h1, h2⟩ := splitFront_eq b
  have h1' : '/' ∉ (splitFront b).1.reverse := by simpa using h1
  rcases hs : splitFront b with ⟨name, _ | r⟩
  · rw [hs] at h1 h2 h1'
    simp only [List.append_nil] at h2
    simp only [lastReversed, hs, Option.getD_none]
    refine ⟨by simp, fun h => by cases b with | nil => exact absurd rfl h | cons x xs => simp, name.reverse, h1', rfl, ?_, ?_⟩
    · rw [h2]; simp [steps, segments]
    · rw [h2, segments_splitFront, splitFront_none h1']; rfl
  · rw [hs] at h1 h2 h1'
    simp only at h2
    have h3 : b.reverse = r.reverse ++ '/' :: name.reverse := by rw [h2]; simp
    simp only [lastReversed, hs, Option.getD_some]
    refine ⟨⟨_, h3.symm⟩, fun _ => by rw [h2]; simp; omega, name.reverse, h1', rfl, ?_, ?_⟩
    · rw [h3]; simp [steps, segments_append]
    · rw [h3, segments_append]
      rw [segments_splitFront name.reverse, splitFront_none h1']
      simp

private theorem nextBack_steps : ∀ (fuel : Nat) (b : Text), b.length < fuel →
    match nextBack fuel b with
    | none => steps b.reverse = []
    | some r => r.reverse <+: b.reverse ∧ ∃ n, steps b.reverse = steps r.reverse ++ [n] := by
  intro fuel
  induction fuel with
  | zero => intro b h; omega
  | succ fuel ih =>
    intro b h
    unfold nextBack
    by_cases hb : b = []
    · subst hb; simp [steps, segments]
    · rw [if_neg hb]
      obtain ⟨h1, h2, n, h3, h4, h5, -⟩ := last_steps b
      have h2 := h2 hb
      rw [steps_one h3] at h5
      rcases hl : lastReversed b with ⟨_ | c, r⟩
      · rw [hl] at h1 h2 h4 h5
        simp only at h1 h2 h4 h5 ⊢
        rw [← h4] at h5
        simp only [if_pos, List.append_nil] at h5
        have := ih r (by omega)
        split at this
        · rw [h5]; exact this
        · rw [h5]; exact ⟨this.1.trans h1, this.2⟩
      · rw [hl] at h1 h2 h4 h5
        simp only at h1 h2 h4 h5 ⊢
        rw [← h4] at h5
        simp only [reduceCtorEq, if_false] at h5
        exact ⟨h1, n, h5⟩

theorem trimRight_steps : ∀ (fuel : Nat) (b : Text), b.length < fuel →
    (trimRight fuel b).reverse <+: b.reverse ∧ steps (trimRight fuel b).reverse = steps b.reverse ∧
    (trimRight fuel b = [] ∨ ∃ n, (segments (trimRight fuel b).reverse).getLast? = some n ∧ n ≠ [] ∧ n ≠ ['.']) := by
  intro fuel
  induction fuel with
  | zero => intro b h; omega
  | succ fuel ih =>
    intro b h
    unfold trimRight
    by_cases hb : b = []
    · subst hb; simp
    · rw [if_neg hb]
      obtain ⟨h1, h2, n, h3, h4, h5, h6⟩ := last_steps b
      have h2 := h2 hb
      rcases hl : lastReversed b with ⟨_ | c, r⟩
      · rw [hl] at h1 h2 h4 h5
        simp only at h1 h2 h4 h5 ⊢
        rw [steps_one h3, ← h4] at h5
        simp only [if_pos, List.append_nil] at h5
        obtain ⟨i1, i2, i3⟩ := ih r (by omega)
        exact ⟨i1.trans h1, by rw [i2, h5], i3⟩
      · rw [hl] at h4
        simp only at h4 ⊢
        refine ⟨List.prefix_refl _, trivial, .inr ⟨n, h6, ?_, ?_⟩⟩
        · rintro rfl; simp [parseSingle] at h4
        · rintro rfl; simp [parseSingle] at h4

/-- **C61** Exactly which path is the parent of an absolute one: there is none if the path makes no steps; otherwise it is
the beginning of the path that makes all its steps but the last and ends with a step (or is the root). -/
theorem C61_parent_exact {p : Text} (h : isAbsolute p = true) :
    (steps p = [] → absParent p = some none) ∧
    (steps p ≠ [] → ∃ q, absParent p = some (some q) ∧ q <+: p ∧ isAbsolute q = true ∧ steps q = (steps p).dropLast ∧
      (q = ['/'] ∨ ∃ n, (segments q).getLast? = some n ∧ n ≠ [] ∧ n ≠ ['.'])) := by
  have hcur : includeCurDir p = false := by simp [includeCurDir, h]
  have hlen : lenBeforeBody p = 1 := by simp [lenBeforeBody, h]
  obtain ⟨s, rfl⟩ := abs_cons h
  have hsteps : ∀ x, steps ('/' :: x) = steps x := by intro x; simp [steps, segments]
  have hp : parent ('/' :: s) = match nextBack (s.reverse.length + 1) s.reverse with
      | some rest => some ('/' :: (trimRight (rest.length + 1) rest).reverse)
      | none => none := by
    unfold parent
    rw [hlen, hcur]
    simp only [List.drop_one, List.tail_cons, List.take_succ_cons, List.take_zero]
    cases nextBack (s.reverse.length + 1) s.reverse <;> simp
  have hn := nextBack_steps (s.reverse.length + 1) s.reverse (by omega)
  rw [List.reverse_reverse] at hn
  rw [hsteps]
  cases he : nextBack (s.reverse.length + 1) s.reverse with
  | none =>
    rw [he] at hn hp
    exact ⟨fun _ => by simp [absParent, hp], fun hne => absurd hn hne⟩
  | some r =>
    rw [he] at hn hp
    simp only at hn hp
    obtain ⟨h1, n, h2⟩ := hn
    obtain ⟨t1, t2, t3⟩ := trimRight_steps (r.length + 1) r (by omega)
    refine ⟨fun h0 => by rw [h0] at h2; simp at h2, fun _ => ⟨_, by simp only [absParent, hp, absAssert]; rfl, ?_, ?_, ?_, ?_⟩⟩
    · exact List.cons_prefix_cons.2 ⟨rfl, t1.trans h1⟩
    · simp [isAbsolute]
    · rw [hsteps, t2, h2]; simp
    · rcases t3 with t3 | ⟨m, m1, m2⟩
      · exact .inl (by rw [t3]; rfl)
      · refine .inr ⟨m, ?_, m2⟩
        simp only [segments, if_true]
        rw [List.getLast?_cons, m1]; rfl

/-- Non-vacuity: the parent of `/a/.//b/./` is `/a`, the one of `/./` does not exist. -/
example : absParent "/a/.//b/./".toList = some (some "/a".toList) ∧ steps "/a/.//b/./".toList = ["a".toList, "b".toList] ∧
    absParent "/./".toList = some none := by decide

end Paths
end Verif
