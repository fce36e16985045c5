import Verif.Model.Sink

/-
Decidable equality of trees and results, so that concrete cases can be evaluated by the kernel.
-/
namespace Verif

mutual
def decGreen : (a b : Green) → Decidable (a = b)
  | .token k t, .token k' t' =>
    if h : k = k' ∧ t = t' then isTrue (by rw [h.1, h.2]) else isFalse (by intro e; injection e with e1 e2; exact h ⟨e1, e2⟩)
  | .token _ _, .node _ _ => isFalse (by intro h; cases h)
  | .node _ _, .token _ _ => isFalse (by intro h; cases h)
  | .node k cs, .node k' cs' =>
    match decEq k k', decGreens cs cs' with
    | isTrue h1, isTrue h2 => isTrue (by rw [h1, h2])
    | isFalse h, _ => isFalse (by intro e; injection e with e1 e2; exact h e1)
    | _, isFalse h => isFalse (by intro e; injection e with e1 e2; exact h e2)
def decGreens : (a b : List Green) → Decidable (a = b)
  | [], [] => isTrue rfl
  | [], _ :: _ => isFalse (by intro h; cases h)
  | _ :: _, [] => isFalse (by intro h; cases h)
  | g :: gs, g' :: gs' =>
    match decGreen g g', decGreens gs gs' with
    | isTrue h1, isTrue h2 => isTrue (by rw [h1, h2])
    | isFalse h, _ => isFalse (by intro e; injection e with e1 e2; exact h e1)
    | _, isFalse h => isFalse (by intro e; injection e with e1 e2; exact h e2)
end
instance : DecidableEq Green := decGreen
instance {ε α} [DecidableEq ε] [DecidableEq α] : DecidableEq (Except ε α)
  | .ok a, .ok b => if h : a = b then isTrue (by rw [h]) else isFalse (by intro e; injection e with e; exact h e)
  | .error a, .error b => if h : a = b then isTrue (by rw [h]) else isFalse (by intro e; injection e with e; exact h e)
  | .ok _, .error _ => isFalse (by intro h; cases h)
  | .error _, .ok _ => isFalse (by intro h; cases h)

end Verif
