import Verif.Spec.Fill
import Verif.Spec.Utils

/-!
The rounded rectangle.
-/

noncomputable section

namespace X7.Elem

/-- The rectangle with the corners `p1`, `p2` without a rim of width `r`. The rectangle with corners rounded by the radius `r` consists of the points that are
at most `r` away from it. -/
def Core (p1 p2 : Pt ℝ) (r : ℝ) (o : Pt ℝ) : Prop :=
  min p1.x p2.x + r ≤ o.x ∧ o.x ≤ max p1.x p2.x - r ∧ min p1.y p2.y + r ≤ o.y ∧ o.y ≤ max p1.y p2.y - r

end X7.Elem
