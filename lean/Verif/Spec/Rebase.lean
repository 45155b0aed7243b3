import Mathlib.Logic.Relation
import Verif.Model.Rebase
import Verif.Spec.PointHeap

namespace X7.RB
open X7.PH Relation
variable {K : Type*} [Field K]

/-- `b` is the base of the point `i` now. -/
def Base (h : Heap K) (i b : ℕ) : Prop :=
  (∃ dx dy n, h[i]? = some (.rel dx dy b n)) ∨ ∃ s n, h[i]? = some (.pcalc b s n)

/-- `j` is `i`, or its base is, or the base of its base, and so on. -/
def Hangs (h : Heap K) (j i : ℕ) : Prop := ReflTransGen (Base h) j i

/-- Among a point, its base, the base of that and so on is one that hangs on itself. -/
def Looping (h : Heap K) (i : ℕ) : Prop := ∃ j, Hangs h i j ∧ TransGen (Base h) j j

/-- Among a point, its base, the base of that and so on is a PointCalc whose base is no PointRelative. -/
def Misfit (h : Heap K) (i : ℕ) : Prop :=
  ∃ j r s n, Hangs h i j ∧ h[j]? = some (.pcalc r s n) ∧ ∀ dx dy b m, h[r]? ≠ some (.rel dx dy b m)

/-- Assigning a base is harmless: what the point is hung on does not hang on the point. -/
def Safe (h : Heap K) : Op K → Prop
  | .call _ => True
  | .setBase i c => ¬ Hangs h c i

/-- Every assignment of a history is harmless at its time. -/
def AllSafe (lim : ℕ) : Heap K → List (Op K) → Prop
  | _, [] => True
  | h, op :: ops => Safe h op ∧ AllSafe lim (step lim h op).1 ops

/-- A program that makes a point and then `k` points, each one step to the right of the one before. -/
def chainOps (K : Type*) [Field K] (k : ℕ) : List (Op K) :=
  .call (.mkPoint 0 0 none) :: (List.range k).map fun i => .call (.mkRel 1 0 i none)

end X7.RB
