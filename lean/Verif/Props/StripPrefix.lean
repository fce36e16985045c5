import Verif.Props.Uri

/-
C117: `AbsPath::strip_prefix` and `AbsPathBuf::pop`.
-/
namespace Verif.Uri
open PathSpec Paths

private theorem component_inj {a b : Text} (h : component a = component b) : a = b := by
  rw [← component_str a, ← component_str b, h]

private theorem body_steps (p : Text) : bodyComponents p = (steps p).map component := by
  rw [bodyComponents_eq, parse_steps]; rfl

private theorem split_steps (p : Text) : steps p = steps (splitFront p).1 ++ steps ((splitFront p).2.getD []) := by
  obtain ⟨h1, h2⟩ := splitFront_eq p
  cases h : (splitFront p).2 with
  | none =>
    rw [h] at h2
    simp only [List.append_nil] at h2
    rw [← h2]; simp [steps, segments]
  | some r =>
    rw [h] at h2
    conv => lhs; rw [h2]
    simp [steps, segments_append]

private theorem rest_lt {p : Text} (h : p ≠ []) : ((splitFront p).2.getD []).length < p.length := by
  obtain ⟨h1, h2⟩ := splitFront_eq p
  cases hs : (splitFront p).2 with
  | none => cases p with | nil => exact absurd rfl h | cons => simp
  | some r =>
    rw [hs] at h2
    have := congrArg List.length h2
    simp at this ⊢
    omega

private theorem parse_none {n : Text} (h : '/' ∉ n) : parseSingle n = none ↔ steps n = [] := by
  rw [steps_one h]
  by_cases e : parseSingle n = none <;> simp [e]

private theorem parse_some {n : Text} {c : Component} (h : '/' ∉ n) (e : parseSingle n = some c) :
    steps n = [n] ∧ c = component n := by
  refine ⟨by rw [steps_one h, e]; simp, ?_⟩
  have := parse_steps [n]
  rw [List.filterMap_cons, e] at this
  simp only [List.filterMap_nil] at this
  rw [List.filter_cons] at this
  split at this
  · simpa using this
  · simp at this

private theorem nextFront_steps : ∀ (fuel : Nat) (p : Text), p.length < fuel →
    (steps p = [] → nextFront fuel p = none) ∧
    (∀ s ss, steps p = s :: ss → ∃ r, nextFront fuel p = some (component s, r) ∧ steps r = ss)
  | 0, _, h => by omega
  | fuel + 1, p, h => by
    unfold nextFront
    by_cases hp : p = []
    · subst hp
      exact ⟨fun _ => by simp, fun s ss e => by simp [steps, segments] at e⟩
    · rw [if_neg hp]
      have hn := (splitFront_eq p).1
      have hs := split_steps p
      have hl := rest_lt hp
      dsimp only
      cases hc : parseSingle (splitFront p).1 with
      | none =>
        rw [(parse_none hn).1 hc, List.nil_append] at hs
        rw [hs]
        exact nextFront_steps fuel _ (by omega)
      | some c =>
        obtain ⟨e1, rfl⟩ := parse_some hn hc
        rw [e1] at hs
        constructor
        · intro e; rw [e] at hs; simp at hs
        · intro s ss e
          rw [e] at hs
          simp only [List.cons_append, List.nil_append, List.cons.injEq] at hs
          exact ⟨_, by rw [hs.1], hs.2.symm⟩

private theorem iterAfter_steps : ∀ (bs : List Text) (p : Text),
    (∀ rest, steps p = bs ++ rest → ∃ r, iterAfter ⟨true, p⟩ (bs.map component) = some ⟨true, r⟩ ∧ steps r = rest) ∧
    (¬bs <+: steps p → iterAfter ⟨true, p⟩ (bs.map component) = none)
  | [], p => ⟨fun rest h => ⟨p, rfl, h⟩, fun h => absurd (List.nil_prefix) h⟩
  | b :: bs, p => by
    have hn := nextFront_steps (p.length + 1) p (by omega)
    simp only [List.map_cons, iterAfter, Front.next, if_true]
    constructor
    · intro rest h
      obtain ⟨r, e, hr⟩ := hn.2 b (bs ++ rest) h
      rw [e]
      simpa using (iterAfter_steps bs r).1 rest hr
    · intro h
      cases hs : steps p with
      | nil => rw [hn.1 hs]; rfl
      | cons s ss =>
        obtain ⟨r, e, hr⟩ := hn.2 s ss hs
        rw [e]
        simp only [Option.map_some]
        by_cases hc : component s = component b
        · rw [if_pos hc]
          apply (iterAfter_steps bs r).2
          rw [hr]
          intro hp
          apply h
          rw [hs, component_inj hc]
          exact List.cons_prefix_cons.2 ⟨rfl, hp⟩
        · rw [if_neg hc]

private theorem trimLeft_steps : ∀ (fuel : Nat) (p : Text), p.length < fuel →
    steps (trimLeft fuel p) = steps p ∧ (trimLeft fuel p = [] ∨
      ∃ n rest, segments (trimLeft fuel p) = n :: rest ∧ n ≠ [] ∧ n ≠ ['.'])
  | 0, _, h => by omega
  | fuel + 1, p, h => by
    unfold trimLeft
    by_cases hp : p = []
    · subst hp; simp
    · rw [if_neg hp]
      have hn := (splitFront_eq p).1
      have hs := split_steps p
      have hl := rest_lt hp
      dsimp only
      cases hc : parseSingle (splitFront p).1 with
      | none =>
        rw [(parse_none hn).1 hc, List.nil_append] at hs
        rw [hs]
        exact trimLeft_steps fuel _ (by omega)
      | some c =>
        refine ⟨rfl, .inr ?_⟩
        have h2 : (splitFront p).1 ≠ [] ∧ (splitFront p).1 ≠ ['.'] := by
          constructor <;> intro e <;> rw [e] at hc <;> simp [parseSingle] at hc
        have h3 := segments_splitFront p
        rcases he : splitFront p with ⟨name, _ | r⟩
        · rw [he] at h2 h3
          exact ⟨name, _, h3, h2⟩
        · rw [he] at h2 h3
          exact ⟨name, _, h3, h2⟩

private theorem plain_of {p : Text} (h : p = [] ∨ ∃ n rest, segments p = n :: rest ∧ n ≠ [] ∧ n ≠ ['.']) :
    isAbsolute p = false ∧ includeCurDir p = false := by
  rcases h with rfl | ⟨n, rest, h1, h2, h3⟩
  · decide
  · cases p with
    | nil => decide
    | cons c cs =>
      have hc : c ≠ '/' := by
        rintro rfl
        simp [segments] at h1
        exact h2 h1.1
      have ha : isAbsolute (c :: cs) = false := by simp [isAbsolute, hc]
      refine ⟨ha, ?_⟩
      unfold includeCurDir
      rw [ha]
      simp only [Bool.not_false, Bool.true_and, Bool.or_eq_false_iff]
      constructor
      · apply Bool.eq_false_iff.2
        intro e
        rw [beq_iff_eq] at e
        rw [e] at h1
        exact h3 (by simp [segments] at h1; exact h1.1.symm)
      · apply Bool.eq_false_iff.2
        intro e
        rw [List.isPrefixOf_iff_prefix] at e
        obtain ⟨t, e⟩ := e
        rw [← e] at h1
        exact h3 (by simp [segments] at h1; exact h1.1.symm)

/-- A path that does not start with a separator or a `.` has exactly its steps as components. -/
private theorem components_rel {p : Text} (h : isAbsolute p = false ∧ includeCurDir p = false) :
    components p = (steps p).map component := by
  unfold components
  rw [h.1, h.2]
  simpa using body_steps p

/-- Trimming on the right changes nothing of this. -/
private theorem plain_prefix {p q : Text} (hq : q <+: p) (hs : steps q = steps p)
    (h : p = [] ∨ ∃ n rest, segments p = n :: rest ∧ n ≠ [] ∧ n ≠ ['.']) :
    isAbsolute q = false ∧ includeCurDir q = false := by
  have hp := plain_of h
  obtain ⟨t, rfl⟩ := hq
  have ha : isAbsolute q = false := by
    cases q with
    | nil => rfl
    | cons c cs => simpa [isAbsolute] using hp.1
  refine ⟨ha, ?_⟩
  have hi := hp.2
  unfold includeCurDir at hi ⊢
  rw [ha]
  rw [hp.1] at hi
  simp only [Bool.not_false, Bool.true_and, Bool.or_eq_false_iff] at hi ⊢
  constructor
  · apply Bool.eq_false_iff.2
    intro e
    rw [beq_iff_eq] at e
    have h0 : steps q = [] := by rw [e]; decide
    rw [h0] at hs
    rcases h with h | ⟨n, rest, h1, h2, h3⟩
    · rw [e] at h; cases h
    · have : n ∈ steps (q ++ t) := by
        unfold steps
        rw [h1, List.mem_filter]
        exact ⟨by simp, by simpa using ⟨h2, h3⟩⟩
      rw [← hs] at this
      cases this
  · apply Bool.eq_false_iff.2
    intro e
    apply Bool.eq_false_iff.1 hi.2
    rw [List.isPrefixOf_iff_prefix] at e ⊢
    exact e.trans (List.prefix_append _ _)

private theorem asPath_steps (r : Text) :
    isAbsolute (Front.asPath ⟨true, r⟩) = false ∧ components (Front.asPath ⟨true, r⟩) = (steps r).map component := by
  obtain ⟨l1, l2⟩ := trimLeft_steps (r.length + 1) r (by omega)
  obtain ⟨r1, r2, -⟩ := trimRight_steps ((trimLeft (r.length + 1) r).length + 1) (trimLeft (r.length + 1) r).reverse (by simp)
  rw [List.reverse_reverse] at r1 r2
  have h := plain_prefix r1 r2 l2
  have e : Front.asPath ⟨true, r⟩ =
    (trimRight ((trimLeft (r.length + 1) r).length + 1) (trimLeft (r.length + 1) r).reverse).reverse := rfl
  rw [e]
  exact ⟨h.1, by rw [components_rel h, r2, l1]⟩

private theorem steps_of_components {p : Text} {ss : List Text} (h : isAbsolute p = false)
    (hc : components p = ss.map component) (hp : ∀ s ∈ ss, s ≠ ['.']) : steps p = ss := by
  unfold components at hc
  rw [h] at hc
  simp only [Bool.false_eq_true, if_false] at hc
  split at hc
  · cases ss with
    | nil => simp at hc
    | cons s ss =>
      simp only [List.map_cons, List.cons.injEq] at hc
      have := congrArg Component.asStr hc.1
      rw [component_str] at this
      exact absurd this.symm (hp s (by simp))
  · rw [body_steps] at hc
    have := congrArg (List.map Component.asStr) hc
    simpa [Function.comp_def, component_str] using this

theorem steps_join_rel {base r : Text} (hr : isAbsolute r = false) (hb : isAbsolute base = true) :
    steps (push base r) = steps base ++ steps r := by
  unfold push
  rw [hr]
  simp only [Bool.false_eq_true, if_false]
  split
  · simp [steps, segments_append]
  · rename_i hc
    have hl : base.getLast? = some '/' := by
      apply Classical.byContradiction
      intro e
      obtain ⟨q, rfl⟩ := abs_cons hb
      exact hc ⟨by simp, e⟩
    obtain ⟨ys, rfl⟩ := List.getLast?_eq_some_iff.1 hl
    have h1 : ys ++ ['/'] ++ r = ys ++ '/' :: r := by simp
    rw [h1, steps_end]
    simp [steps, segments_append]

/-- `strip_prefix` finds the rest of a path after a directory exactly when the names of the directory are the first names
of the path.  The rest is a relative path with the remaining components, and joining it to the directory gives the
path again. -/
theorem C117_strip_prefix {p base : Text} (hp : isAbsolute p = true) (hb : isAbsolute base = true) :
    (∀ rest, steps p = steps base ++ rest → ∃ r, stripPrefix p base = some r ∧ isAbsolute r = false ∧
      steps r = rest ∧ components p = components base ++ components r ∧
      ∃ j, absJoin base r = some j ∧ samePath j p) ∧
    (¬steps base <+: steps p → stripPrefix p base = none) := by
  obtain ⟨q, rfl⟩ := abs_cons hp
  have hit : iterAfter ⟨false, '/' :: q⟩ (components base) = iterAfter ⟨true, q⟩ ((steps base).map component) := by
    rw [components_abs hb]
    simp [iterAfter, Front.next, isAbsolute]
  have key := iterAfter_steps (steps base) q
  constructor
  · intro rest h
    rw [steps_sep] at h
    obtain ⟨r, e, hr⟩ := key.1 rest h
    obtain ⟨a1, a2⟩ := asPath_steps r
    have a3 : steps (Front.asPath ⟨true, r⟩) = steps r :=
      steps_of_components a1 a2 (fun s hs => (steps_mem hs).2.1)
    refine ⟨Front.asPath ⟨true, r⟩, by rw [stripPrefix, hit, e]; rfl, a1, by rw [a3, hr], ?_, ?_⟩
    · rw [components_abs hp, components_abs hb, a2, steps_sep, h, hr]; simp
    · obtain ⟨j, hj, hja, -⟩ := C61_join hb (Front.asPath ⟨true, r⟩)
      refine ⟨j, hj, (C116_same_path hja hp).2 ?_⟩
      have : j = push base (Front.asPath ⟨true, r⟩) := by
        unfold absJoin absAssert at hj
        split at hj
        · exact (Option.some.inj hj).symm
        · cases hj
      rw [this, steps_join_rel a1 hb, a3, hr, steps_sep, h]
  · intro h
    rw [steps_sep] at h
    rw [stripPrefix, hit, key.2 h]; rfl

/-- `pop` removes the last name, if there is one, and says whether it did; the path stays absolute. -/
theorem C117_pop {p : Text} (h : isAbsolute p = true) :
    (absPop p).1 = !(steps p).isEmpty ∧ isAbsolute (absPop p).2 = true ∧
    steps (absPop p).2 = (steps p).dropLast ∧ (absPop p).2 <+: p := by
  have hx := C61_parent_exact h
  cases hs : steps p with
  | nil =>
    have h1 := hx.1 hs
    have h2 : parent p = none := by
      unfold absParent at h1
      cases e : parent p with
      | none => rfl
      | some q =>
        rw [e] at h1
        dsimp only at h1
        unfold absAssert at h1
        split at h1
        · simp at h1
        · simp at h1
    have h3 : absPop p = (false, p) := by unfold absPop; rw [h2]
    rw [h3]
    exact ⟨rfl, h, by rw [hs]; rfl, List.prefix_refl _⟩
  | cons s ss =>
    obtain ⟨q, h1, h2, h3, h4, -⟩ := hx.2 (by rw [hs]; simp)
    have h5 : parent p = some q := by
      unfold absParent at h1
      cases e : parent p with
      | none => rw [e] at h1; simp at h1
      | some r =>
        rw [e] at h1
        dsimp only at h1
        unfold absAssert at h1
        split at h1
        · simpa using h1
        · simp at h1
    have h6 : absPop p = (true, q) := by
      unfold absPop
      rw [h5]
      dsimp only
      obtain ⟨t, rfl⟩ := h2
      simp
    rw [h6]
    exact ⟨rfl, h3, by rw [h4, hs], h2⟩

/-- Examples: superfluous separators and dots do not matter; a name is a whole name. -/
example : stripPrefix "/a//./b/c.lua/".toList "/./a".toList = some "b/c.lua".toList ∧
    stripPrefix "/a/b".toList "/a/b/".toList = some [] ∧ stripPrefix "/ab".toList "/a".toList = none ∧
    stripPrefix "/a".toList "/a/b".toList = none ∧
    absPop "/a/b//".toList = (true, "/a".toList) ∧ absPop "/.".toList = (false, "/.".toList) := by decide +kernel

end Verif.Uri
