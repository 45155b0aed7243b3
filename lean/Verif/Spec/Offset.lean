import Verif.Model.Offset
import Verif.Spec.Bezier

/-!
What offsetting a curve means: the control polygon, its orientation, its sides.
-/

noncomputable section

namespace X7.Elem

/-- The vertices of the control polygon: left handle, point, right handle of every control point. -/
def ring (cps : List (CP ℝ)) : List (Pt ℝ) := cps.flatMap fun cp => [cp.l, cp.c, cp.r]

/-- The vertex with number `i`, counting round and round. -/
def vertex (R : List (Pt ℝ)) (i : ℕ) : Pt ℝ := R.getD (i % R.length) ⟨0, 0⟩

/-- The same curve, traced with non-negative area. -/
def Oriented (cps ccw : List (CP ℝ)) : Prop :=
  (ccw = cps ∨ ccw = CP.reverseList cps) ∧ 0 ≤ polygonArea (ring ccw)

end X7.Elem
