import Verif.Spec.Precedences

/-
C55: binding-power tables are consistent.
-/
namespace Verif
namespace BindingPowers
open Spec

/-- the powers a declaration gets when the counter is at `c` -/
private def assigned (c : Nat) : PrecType → List Nat
  | .infix .left => [c + 1, c + 2]
  | .infix .right => [c + 2, c + 1]
  | .prefix => [c + 1]
  | .postfix => [c + 1]

private theorem bump_some {c n : Nat} (h : bump c = some n) : n = c + 1 ∧ c < 255 := by
  unfold bump at h
  split at h
  · simp at h; omega
  · simp at h

private theorem room_cons (d : Nat × PrecType) (ds) : room (d :: ds) = room [d] + room ds := by
  simp [room]

private theorem room_append (ds es) : room (ds ++ es) = room ds + room es := by
  simp [room]

private theorem getD_set {res : List Precedences} {i id : Nat} {p : Precedences} (h : i < res.length) :
    (res.set i p).getD id {} = if id = i then p else res.getD id {} := by
  simp only [List.getD_eq_getElem?_getD, List.getElem?_set]
  by_cases e : i = id
  · subst e; simp [h]
  · simp [e, Ne.symm e]

/-- one turn of the loop -/
private theorem step_spec {c res d c' res'} (h : step c res d = some (c', res')) :
    c' = c + room [d] ∧ c' ≤ 255 ∧ d.1 < res.length ∧ res'.length = res.length ∧
    powers res' d.1 (fixity d.2) = assigned c d.2 ∧
    ∀ id f, (id, f) ≠ (d.1, fixity d.2) → powers res' id f = powers res id f := by
  rcases d with ⟨i, ty⟩
  have key : ∀ (p : Precedences → Precedences) (old : Precedences), res[i]? = some old →
      i < res.length ∧ res.getD i {} = old := by
    intro p old h
    obtain ⟨hl, hv⟩ := List.getElem?_eq_some_iff.1 h
    exact ⟨hl, by simp [List.getD_eq_getElem?_getD, h]⟩
  cases ty with
  | «infix» a =>
    simp only [step, Option.bind_eq_bind, Option.bind_eq_some_iff] at h
    obtain ⟨x, hx, y, hy, old, hold, h⟩ := h
    obtain ⟨hl, hg⟩ := key id old hold
    obtain ⟨rfl, h1⟩ := bump_some hx
    obtain ⟨rfl, h2⟩ := bump_some hy
    simp only [Option.some.injEq, Prod.mk.injEq] at h
    obtain ⟨rfl, rfl⟩ := h
    refine ⟨by simp [room], by omega, hl, by simp, ?_, ?_⟩
    · simp only [powers, fixity, getInfix, getD_set hl, if_true]
      cases a <;> simp [assigned]
    · intro id f hne
      cases f <;> simp only [powers, getInfix, getPrefix, getPostfix, getD_set hl] <;>
        by_cases e : id = i <;> simp_all [fixity]
  | «prefix» =>
    simp only [step, Option.bind_eq_bind, Option.bind_eq_some_iff] at h
    obtain ⟨x, hx, old, hold, h⟩ := h
    obtain ⟨hl, hg⟩ := key id old hold
    obtain ⟨rfl, h1⟩ := bump_some hx
    simp only [Option.some.injEq, Prod.mk.injEq] at h
    obtain ⟨rfl, rfl⟩ := h
    refine ⟨by simp [room], by omega, hl, by simp, ?_, ?_⟩
    · simp only [powers, fixity, getPrefix, getD_set hl, if_true]
      simp [assigned]
    · intro id f hne
      cases f <;> simp only [powers, getInfix, getPrefix, getPostfix, getD_set hl] <;>
        by_cases e : id = i <;> simp_all [fixity]
  | «postfix» =>
    simp only [step, Option.bind_eq_bind, Option.bind_eq_some_iff] at h
    obtain ⟨x, hx, old, hold, h⟩ := h
    obtain ⟨hl, hg⟩ := key id old hold
    obtain ⟨rfl, h1⟩ := bump_some hx
    simp only [Option.some.injEq, Prod.mk.injEq] at h
    obtain ⟨rfl, rfl⟩ := h
    refine ⟨by simp [room], by omega, hl, by simp, ?_, ?_⟩
    · simp only [powers, fixity, getPostfix, getD_set hl, if_true]
      simp [assigned]
    · intro id f hne
      cases f <;> simp only [powers, getInfix, getPrefix, getPostfix, getD_set hl] <;>
        by_cases e : id = i <;> simp_all [fixity]

private theorem step_total {c res d} (hd : d.1 < res.length) (hc : c + room [d] ≤ 255) :
    ∃ r, step c res d = some r := by
  rcases d with ⟨i, ty⟩
  have e : res[i]? = some res[i] := by simp at hd; simp [hd]
  cases ty <;> simp [room] at hc
  · have h1 : bump c = some (c + 1) := by simp [bump]; omega
    have h2 : bump (c + 1) = some (c + 2) := by simp [bump]; omega
    simp [step, h1, h2, e]
  · have h1 : bump c = some (c + 1) := by simp [bump]; omega
    simp [step, h1, e]
  · have h1 : bump c = some (c + 1) := by simp [bump]; omega
    simp [step, h1, e]

/-- an operator that is not declared keeps what it had -/
private theorem loop_untouched : ∀ (ds : List (Nat × PrecType)) c res t, loop c res ds = some t → ∀ id f,
    (∀ d ∈ ds, (id, f) ≠ (d.1, fixity d.2)) → powers t id f = powers res id f := by
  intro ds
  induction ds with
  | nil => intro c res t h id f _; simp [loop] at h; rw [h]
  | cons d ds ih =>
    intro c res t h id f hd
    simp only [loop] at h
    split at h
    · exact absurd h (by simp)
    · rename_i c' r hs
      obtain ⟨_, _, _, _, _, hk⟩ := step_spec hs
      rw [ih c' r t h id f (fun d' h' => hd d' (by simp [h']))]
      exact hk id f (hd d (by simp))

private theorem loop_assigned : ∀ (pre : List (Nat × PrecType)) (d : Nat × PrecType) post c res t,
    loop c res (pre ++ d :: post) = some t → (∀ d' ∈ post, (d.1, fixity d.2) ≠ (d'.1, fixity d'.2)) →
    powers t d.1 (fixity d.2) = assigned (c + room pre) d.2 := by
  intro pre
  induction pre with
  | nil =>
    intro d post c res t h hp
    simp only [List.nil_append, loop] at h
    split at h
    · exact absurd h (by simp)
    · rename_i c' r hs
      obtain ⟨_, _, _, _, hk, _⟩ := step_spec hs
      rw [loop_untouched post c' r t h _ _ hp, hk]
      simp [room]
  | cons e pre ih =>
    intro d post c res t h hp
    simp only [List.cons_append, loop] at h
    split at h
    · exact absurd h (by simp)
    · rename_i c' r hs
      obtain ⟨hc, _⟩ := step_spec hs
      rw [ih d post c' r t h hp, hc, room_cons e pre, Nat.add_assoc]

private theorem loop_total : ∀ (ds : List (Nat × PrecType)) c res,
    (∀ d ∈ ds, d.1 < res.length) → c + room ds ≤ 255 → ∃ t, loop c res ds = some t := by
  intro ds
  induction ds with
  | nil => intro c res _ _; exact ⟨res, rfl⟩
  | cons d ds ih =>
    intro c res hd hc
    rw [room_cons] at hc
    obtain ⟨⟨c', r⟩, hs⟩ := step_total (c := c) (hd d (by simp)) (by omega)
    obtain ⟨h1, _, _, h2, _⟩ := step_spec hs
    simp only [loop, hs]
    exact ih c' r (fun d' h' => h2 ▸ hd d' (by simp [h'])) (by omega)

private theorem loop_some : ∀ (ds : List (Nat × PrecType)) c res t, c ≤ 255 → loop c res ds = some t →
    (∀ d ∈ ds, d.1 < res.length) ∧ c + room ds ≤ 255 ∧ t.length = res.length := by
  intro ds
  induction ds with
  | nil => intro c res t hc h; simp [loop] at h; subst h; simp [room, hc]
  | cons d ds ih =>
    intro c res t hc h
    simp only [loop] at h
    split at h
    · exact absurd h (by simp)
    · rename_i c' r hs
      obtain ⟨h1, h2, h3, h4, _⟩ := step_spec hs
      obtain ⟨i1, i2, i3⟩ := ih c' r t h2 h
      refine ⟨?_, ?_, by omega⟩
      · intro d' h'
        rcases List.mem_cons.1 h' with rfl | h'
        · exact h3
        · have := i1 d' h'; omega
      · rw [room_cons]; omega

private theorem new_assigned {n decls t} (h : new n decls = some t) (once : DeclaredOnce decls)
    {i : Nat} {d : Nat × PrecType} (hi : decls[i]? = some d) :
    powers t d.1 (fixity d.2) = assigned (1 + room (decls.take i)) d.2 := by
  obtain ⟨hl, rfl⟩ := List.getElem?_eq_some_iff.1 hi
  have hsplit : decls = decls.take i ++ decls[i] :: decls.drop (i + 1) := by
    rw [List.getElem_cons_drop]; simp
  refine loop_assigned (decls.take i) decls[i] (decls.drop (i + 1)) 1 _ t (hsplit ▸ h) ?_
  intro d' h'
  have hn := once
  unfold DeclaredOnce at hn
  rw [hsplit, List.map_append, List.map_cons] at hn
  have := (List.nodup_cons.1 (List.nodup_append.1 hn).2.1).1
  intro e
  apply this
  rw [e]
  exact List.mem_map_of_mem h'

private theorem mem_assigned {c ty p} (h : p ∈ assigned c ty) : c < p ∧ p ≤ c + room [(0, ty)] := by
  rcases ty with a | _ | _
  · cases a <;> simp [assigned, room] at * <;> omega
  all_goals simp [assigned, room] at *; omega

private theorem room_take_lt {decls : List (Nat × PrecType)} {i j : Nat} {d} (hi : decls[i]? = some d) (h : i < j) :
    room (decls.take i) + room [(0, d.2)] ≤ room (decls.take j) := by
  obtain ⟨hl, rfl⟩ := List.getElem?_eq_some_iff.1 hi
  have : room (decls.take (i + 1)) = room (decls.take i) + room [(0, decls[i].2)] := by
    rw [List.take_add_one, room_append]
    simp [hl, room]
  rw [← this]
  have e : decls.take (i + 1) <+: decls.take j := by
    rw [show i + 1 = min (i + 1) j by omega, ← List.take_take]
    exact List.take_prefix _ _
  obtain ⟨r, hr⟩ := e
  rw [← hr, room_append]
  omega

/-- The table is built exactly when every operator has a place in it and its powers fit in a byte (0 means
"not an operator", 1 is below every operator). -/
theorem C55_builds_iff (n : Nat) (decls : List (Nat × PrecType)) :
    (∃ t, new n decls = some t) ↔ (∀ d ∈ decls, d.1 < n) ∧ room decls ≤ 254 := by
  constructor
  · rintro ⟨t, h⟩
    obtain ⟨h1, h2, _⟩ := loop_some decls 1 _ t (by omega) h
    refine ⟨fun d hd => ?_, by omega⟩
    simpa using h1 d hd
  · rintro ⟨h1, h2⟩
    exact loop_total decls 1 _ (fun d hd => by simpa using h1 d hd) (by omega)

/-- Operators declared later bind tighter: all powers of an earlier declaration are smaller than all powers of a
later one. -/
theorem C55_declaration_order {n decls t} (h : new n decls = some t) (once : DeclaredOnce decls)
    {i j : Nat} {d e : Nat × PrecType} (hi : decls[i]? = some d) (hj : decls[j]? = some e) (hij : i < j) :
    ∀ p ∈ powers t d.1 (fixity d.2), ∀ q ∈ powers t e.1 (fixity e.2), p < q := by
  intro p hp q hq
  rw [new_assigned h once hi] at hp
  rw [new_assigned h once hj] at hq
  have h1 := mem_assigned hp
  have h2 := mem_assigned hq
  have h3 := room_take_lt hi hij
  omega

/-- No two declarations share a power, and no infix operator has the same power on both sides. -/
theorem C55_distinct {n decls t} (h : new n decls = some t) (once : DeclaredOnce decls) :
    (decls.flatMap fun d => powers t d.1 (fixity d.2)).Nodup := by
  suffices H : ∀ k, ((decls.take k).flatMap fun d => powers t d.1 (fixity d.2)).Nodup by
    have := H decls.length
    rwa [List.take_length] at this
  intro k
  induction k with
  | zero => simp
  | succ k ih =>
    rw [List.take_add_one]
    cases hk : decls[k]? with
    | none => simpa [hk] using ih
    | some d =>
      simp only [Option.toList_some, List.flatMap_append, List.flatMap_cons, List.flatMap_nil, List.append_nil]
      refine List.nodup_append.2 ⟨ih, ?_, ?_⟩
      · rw [new_assigned h once hk]
        rcases d with ⟨i, ty⟩
        rcases ty with a | _ | _
        · cases a <;> simp [assigned]
        all_goals simp [assigned]
      · intro a ha b hb
        simp only [List.mem_flatMap] at ha
        obtain ⟨e, he, hp⟩ := ha
        obtain ⟨i, hi⟩ := List.mem_iff_getElem?.1 he
        rw [List.getElem?_take] at hi
        split at hi
        · have := C55_declaration_order h once hi hk (by omega) a hp b hb
          omega
        · exact absurd hi (by simp)

/-- A left associative operator binds tighter on its right, a right associative one on its left; every declared
power is above the lowest one the parser starts from, and fits in a byte. -/
theorem C55_associativity {n decls t} (h : new n decls = some t) (once : DeclaredOnce decls)
    {op : Nat} {ty : PrecType} (hd : (op, ty) ∈ decls) :
    (ty = .infix .left → (getInfix t op).1 < (getInfix t op).2) ∧
    (ty = .infix .right → (getInfix t op).2 < (getInfix t op).1) ∧
    ∀ p ∈ powers t op (fixity ty), lowest < p ∧ p < 256 := by
  obtain ⟨i, hi⟩ := List.mem_iff_getElem?.1 hd
  have hs := new_assigned h once hi
  refine ⟨?_, ?_, ?_⟩
  · rintro rfl
    simp [powers, fixity, assigned] at hs
    omega
  · rintro rfl
    simp [powers, fixity, assigned] at hs
    omega
  · intro p hp
    rw [hs] at hp
    have h1 := mem_assigned hp
    obtain ⟨_, h2⟩ := (C55_builds_iff n decls).1 ⟨t, h⟩
    have h3 := room_take_lt hi (j := decls.length) (List.getElem?_eq_some_iff.1 hi).1
    rw [List.take_length] at h3
    simp only [lowest]
    omega

/-- An operator that is not declared with a fixity has power 0 there: it is not an operator. -/
theorem C55_undeclared {n decls t} (h : new n decls = some t) (op : Nat) (f : Fixity)
    (hn : ∀ d ∈ decls, (d.1, fixity d.2) ≠ (op, f)) : ∀ p ∈ powers t op f, p = 0 := by
  intro p hp
  rw [loop_untouched decls 1 _ t h op f (fun d hd => Ne.symm (hn d hd))] at hp
  have e : (List.replicate n ({} : Precedences)).getD op {} = {} := by
    simp only [List.getD_eq_getElem?_getD, List.getElem?_replicate]
    split <;> rfl
  cases f <;> simp only [powers, getInfix, getPrefix, getPostfix, e] at hp <;> simpa using hp

/-- A later declaration of the same operator with the same fixity wins. -/
theorem C55_redeclared {n} {pre post : List (Nat × PrecType)} {d : Nat × PrecType} {t}
    (h : new n (pre ++ d :: post) = some t)
    (hlast : ∀ e ∈ post, (e.1, fixity e.2) ≠ (d.1, fixity d.2)) :
    ∀ p ∈ powers t d.1 (fixity d.2), 1 + room pre < p ∧ p ≤ 1 + room (pre ++ [d]) := by
  intro p hp
  rw [loop_assigned pre d post 1 _ t h (fun e he => Ne.symm (hlast e he))] at hp
  have := mem_assigned hp
  have e : room [(0, d.2)] = room [d] := by simp [room]
  rw [room_append]
  omega

/-- The operator table of the parser meets the hypotheses of these theorems. -/
example : (∃ t, new 17 LuaOp.decls = some t) ∧ DeclaredOnce LuaOp.decls ∧
    LuaOp.decls[0]? = some (LuaOp.or.toId, .infix .left) ∧
    LuaOp.decls[16]? = some (LuaOp.minus.toId, .prefix) ∧
    (∀ d ∈ LuaOp.decls, (d.1, fixity d.2) ≠ (LuaOp.or.toId, Fixity.prefix)) := by
  refine ⟨⟨LuaOp.table, by decide⟩, by unfold DeclaredOnce; decide, rfl, rfl, by decide⟩

end BindingPowers
end Verif
