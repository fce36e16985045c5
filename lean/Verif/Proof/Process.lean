import Verif.Proof.FrameSim

/-
`processEvents` on the encoding of a list of items yields the callbacks of the corresponding trees.
-/
namespace Verif
open Item

namespace Item

/-- kinds on the `precede` chain, innermost first -/
def spine : Item → List SyntaxKind
  | .node _ k [] _ => [k]
  | .node _ k (b :: _) _ => spine b ++ [k]
  | _ => []

/-- The events of a node after its first one, once the `precede` chain has been followed. -/
def dead : Item → List Event
  | .node _ _ [] af => encL af ++ [.finish]
  | .node _ _ (b :: bs) af => dead b ++ encL bs ++ Event.tombstone :: (encL af ++ [.finish])
  | i => enc none i

def isNode : Item → Prop
  | .node .. => True
  | _ => False

theorem ok_node_cons {p k b bs af} (h : ok (.node p k (b :: bs) af)) : isNode b ∧ ok b := by
  simp only [ok, okL] at h
  refine ⟨?_, h.2.2.1.1⟩
  have := h.2.1
  cases b <;> simp_all [headNode, isNode]

theorem dead_length (i : Item) (h : isNode i) (hok : ok i) : (dead i).length + 1 = size i := by
  induction i using dead.induct with
  | case1 p k af => simp [dead, size, encL_length, sizeL]
  | case2 p k b bs af ih =>
    have hb := ok_node_cons hok
    have := ih hb.1 hb.2
    simp [dead, size, encL_length, sizeL]; omega
  | case3 i h1 h2 => exact absurd h (by
      cases i <;> simp [isNode]
      rename_i bf af
      cases bf with
      | nil => exact h1 _ _ _ rfl
      | cons x y => exact h2 _ _ _ _ _ rfl)

theorem startOff_le (i : Item) : startOff i ≤ size i := by
  cases i <;> simp [startOff, size]; omega

theorem chain (i : Item) (fp : Option Nat) (h : isNode i) (hok : ok i) :
    ∃ k0 fp0 tl m, enc fp i = .start k0 fp0 :: tl ∧ k0 ≠ .tombstone ∧ m ≤ tl.length ∧
      ∀ n rest, walkParents (n + m) 0 fp0 (tl ++ rest) [k0] =
        walkParents n (startOff i) fp (dead i ++ rest) (spine i) := by
  induction i using dead.induct generalizing fp with
  | case1 p k af =>
    simp only [ok] at hok
    exact ⟨k, fp, encL af ++ [.finish], 0, by simp [enc, encB], hok.1, by simp,
      by intro n rest; simp [dead, startOff, spine, sizeL]⟩
  | case2 p k b bs af ih =>
    have hb := ok_node_cons hok
    have hd := dead_length b hb.1 hb.2
    have hso := startOff_le b
    obtain ⟨k0, fp0, tl, m, h1, h2, h3, h4⟩ := ih (some (size b + sizeL bs - startOff b)) hb.1 hb.2
    refine ⟨k0, fp0, tl ++ (encL bs ++ .start k fp :: (encL af ++ [.finish])), m + 1, ?_, h2, ?_, ?_⟩
    · simp [enc, encB, h1]
    · simp; omega
    · intro n rest
      have := h4 (n + 1) (encL bs ++ .start k fp :: (encL af ++ [.finish]) ++ rest)
      rw [show n + (m + 1) = n + 1 + m by omega, List.append_assoc, this]
      rw [walkParents]
      have e1 : startOff b + (size b + sizeL bs - startOff b) = size b + sizeL bs := by omega
      rw [e1]
      have e2 : ¬ (size b + sizeL bs = 0) := by omega
      rw [if_neg e2]
      have e3 : dead b ++ (encL bs ++ .start k fp :: (encL af ++ [.finish]) ++ rest) =
        (dead b ++ encL bs) ++ .start k fp :: (encL af ++ [.finish] ++ rest) := by simp
      rw [e3]
      have e4 : size b + sizeL bs - 1 = (dead b ++ encL bs).length := by
        simp [encL_length]; omega
      rw [getElem?_append_mid e4, set_append_mid e4]
      simp only [ok] at hok
      simp [hok.1, startOff, sizeL, spine, dead]
  | case3 i h1 h2 => exact absurd h (by
      cases i <;> simp [isNode]
      rename_i bf af
      cases bf with
      | nil => exact h1 _ _ _ rfl
      | cons x y => exact h2 _ _ _ _ _ rfl)

end Item

/-- Result of prepending the callbacks `cs`. -/
def prep (cs : List SinkCall) : Except Fail (List SinkCall) → Except Fail (List SinkCall)
  | .ok l => .ok (cs ++ l)
  | .error e => .error e

@[simp] theorem prep_nil (r) : prep [] r = r := by cases r <;> simp [prep]
@[simp] theorem prep_prep (a b r) : prep a (prep b r) = prep (a ++ b) r := by
  cases r <;> simp [prep]
theorem map_eq_prep (c : SinkCall) (r : Except Fail (List SinkCall)) :
    r.map (c :: ·) = prep [c] r := by cases r <;> simp [prep, Except.map]

theorem processEvents_tombstone (rest) :
    processEvents (Event.tombstone :: rest) = processEvents rest := by
  rw [Event.tombstone, processEvents]; simp

/-- callbacks of a node without its (chain of) start callbacks -/
def Item.callsD : Item → List SinkCall
  | .node _ _ [] af => PTree.callsL (toTreeL af) ++ [.finishNode]
  | .node _ _ (b :: bs) af =>
    Item.callsD b ++ PTree.callsL (toTreeL bs) ++ PTree.callsL (toTreeL af) ++ [.finishNode]
  | _ => []

theorem calls_eq (i : Item) (h : isNode i) (hok : ok i) :
    (toTree i).calls = (spine i).reverse.map .startNode ++ Item.callsD i := by
  induction i using dead.induct with
  | case1 p k af => simp [toTree, PTree.calls, spine, Item.callsD, toTreeL]
  | case2 p k b bs af ih =>
    have hb := ok_node_cons hok
    simp [toTree, PTree.calls, spine, Item.callsD, toTreeL, PTree.callsL, ih hb.1 hb.2]
  | case3 i h1 h2 => exact absurd h (by
      cases i <;> simp [isNode]
      rename_i bf af
      cases bf with
      | nil => exact h1 _ _ _ rfl
      | cons x y => exact h2 _ _ _ _ _ rfl)

mutual
theorem process_enc : (i : Item) → ok i → ∀ rest,
    processEvents (enc none i ++ rest) = prep (toTree i).calls (processEvents rest)
  | .tok k, _, rest => by
    simp [enc, toTree, PTree.calls, processEvents, map_eq_prep]
  | .err k, _, rest => by
    simp [enc, toTree, PTree.calls, processEvents, map_eq_prep]
  | .errNode cs e, h, rest => by
    have := process_encL cs (by simpa [ok] using h) (.finishError e :: rest)
    simp [enc, toTree, PTree.calls, processEvents, map_eq_prep, this]
  | .node p k bf af, h, rest => by
    obtain ⟨k0, fp0, tl, m, h1, h2, h3, h4⟩ := chain (.node p k bf af) none trivial h
    rw [h1, List.cons_append, processEvents]
    simp only [h2, if_false]
    have hw := h4 ((tl ++ rest).length + 1 - m) rest
    rw [show (tl ++ rest).length + 1 - m + m = (tl ++ rest).length + 1 by simp; omega] at hw
    rw [show ∀ n o ev acc, walkParents n o none ev acc = .ok (acc, ev) by
      intro n o ev acc; cases n <;> rfl] at hw
    split
    · rename_i e he; rw [hw] at he; simp at he
    · rename_i kinds rest' he
      rw [hw] at he
      simp at he
      obtain ⟨rfl, rfl⟩ := he
      rw [process_dead (.node p k bf af) h trivial rest, calls_eq (.node p k bf af) trivial h, ← prep_prep]
      cases prep (Item.callsD (.node p k bf af)) (processEvents rest) <;> simp [prep]
theorem process_encL : (is : List Item) → okL is → ∀ rest,
    processEvents (encL is ++ rest) = prep (PTree.callsL (toTreeL is)) (processEvents rest)
  | [], _, rest => by simp [encL, toTreeL, PTree.callsL]
  | i :: is, h, rest => by
    simp only [okL] at h
    simp [encL, toTreeL, PTree.callsL, process_enc i h.1, process_encL is h.2]
theorem process_dead : (i : Item) → ok i → isNode i → ∀ rest,
    processEvents (dead i ++ rest) = prep (Item.callsD i) (processEvents rest)
  | .node _ k [] af, h, _, rest => by
    have := process_encL af (by simp only [ok] at h; exact h.2.2.2) (.finish :: rest)
    simp [dead, Item.callsD, this, processEvents, map_eq_prep]
  | .node _ k (b :: bs) af, h, _, rest => by
    have hb := ok_node_cons h
    simp only [ok, okL] at h
    have h1 := process_dead b hb.2 hb.1
    have h2 := process_encL bs h.2.2.1.2
    have h3 := process_encL af h.2.2.2
    simp [dead, Item.callsD, h1, h2, h3, processEvents, map_eq_prep, processEvents_tombstone]
  | .tok _, _, h, _ => by simp [isNode] at h
  | .err _, _, h, _ => by simp [isNode] at h
  | .errNode _ _, _, h, _ => by simp [isNode] at h
end

/-- A program that, in the frame semantics, builds `items` at the top level is turned by the event
semantics and `processEvents` into the callbacks describing them. -/
theorem run_process {α : Type} (p : Prog α) (toks : List SyntaxKind) (a : α) (f' : FState)
    (h : p.runF ⟨toks, 0, [], []⟩ = .ok (a, f')) (hst : f'.stack = []) :
    ∃ s', p.run ⟨toks, []⟩ = .ok (a, s') ∧ s'.toks = f'.toks ∧
      processEvents s'.events = .ok (PTree.callsL (toTreeL f'.cur.reverse)) := by
  have h0 : Sim ⟨toks, []⟩ ⟨toks, 0, [], []⟩ :=
    ⟨rfl, by simp [ctxEnc, encL], rfl, trivial, by simp [okL], by simp [posOK]⟩
  obtain ⟨s', h1, h2⟩ := run_sim p _ _ a f' h0 h
  refine ⟨s', h1, h2.toks, ?_⟩
  have := process_encL f'.cur.reverse h2.curOK []
  rw [h2.events, hst]
  simp only [ctxEnc, List.nil_append]
  simp only [List.append_nil] at this
  rw [this, processEvents]; simp [prep]

end Verif
