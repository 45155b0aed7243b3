import Verif.Spec.Fill
import Mathlib.MeasureTheory.Measure.Lebesgue.Basic

/-!
The area of a part of the plane, and how often a polygon goes around a point.
-/

noncomputable section

namespace X7.Elem
open MeasureTheory

/-- The area (Lebesgue measure) of a part of the plane. -/
def areaOf (A : Set (Pt ℝ)) : ℝ := (volume {q : ℝ × ℝ | (⟨q.1, q.2⟩ : Pt ℝ) ∈ A}).toReal

open Classical in
/-- 1 if the line from `a` to `b` crosses the ray from `p` to the right on its way up, -1 if on its way down, 0 if it does not cross it. -/
def sense (p a b : Pt ℝ) : ℤ := if Crosses p a b then (if a.y ≤ p.y then 1 else -1) else 0

/-- How often the polygon through the points goes around `p`, counter-clockwise in coordinates with `y` upwards. -/
def winding (pts : List (Pt ℝ)) (p : Pt ℝ) : ℤ := ((pts.zip (pts.rotate 1)).map fun e => sense p e.1 e.2).sum

end X7.Elem
