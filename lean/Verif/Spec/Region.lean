import Mathlib.Data.Set.Basic
import Verif.Model.BBox

/-!
What a box means: sets of points. Used to state C08-C16 independently of the BBox code.
-/

namespace X7.BBox
variable {α : Type*} [LinearOrder α]

/-- The closed region of a box; empty for the none box. -/
def Region : BBox α → Set (Pt α)
  | .none => ∅
  | .box xl yl xh yh => {p | (xl ≤ p.x ∧ p.x ≤ xh) ∧ (yl ≤ p.y ∧ p.y ≤ yh)}

/-- The open region (strictly inside). -/
def Interior : BBox α → Set (Pt α)
  | .none => ∅
  | .box xl yl xh yh => {p | (xl < p.x ∧ p.x < xh) ∧ (yl < p.y ∧ p.y < yh)}

/-- A box is normalised if it is none or its coordinates are in order. -/
def Norm : BBox α → Prop
  | .none => True
  | .box xl yl xh yh => xl ≤ xh ∧ yl ≤ yh

/-- A box has positive area: strictly ordered in both coordinates. -/
def Fat : BBox α → Prop
  | .none => False
  | .box xl yl xh yh => xl < xh ∧ yl < yh

end X7.BBox
