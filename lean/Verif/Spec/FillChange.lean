import Verif.Spec.Utils

/-!
The length of the outline of a polygon.
-/

noncomputable section

namespace X7.Elem

/-- The lengths of the sides of a polygon, added up (the side from the last point to the first one included). -/
def perimeter (pts : List (Pt ℝ)) : ℝ := ((pts.zip (pts.rotate 1)).map fun e => Utils.distPt e.1 e.2).sum

end X7.Elem
