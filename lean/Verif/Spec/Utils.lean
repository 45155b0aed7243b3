import Verif.Model.Utils

/-! What the functions of utils.py are about: angles up to full turns, points on a circle. -/

noncomputable section

namespace X7.Utils

/-- Two angles in degrees that differ by full turns. -/
def SameAngle (a b : ℝ) : Prop := ∃ k : ℤ, a - b = 360 * k

/-- The point at an angle (degrees, counter-clockwise from the x-axis) on the circle about `c`. -/
def onCircle (c : Pt ℝ) (r deg : ℝ) : Pt ℝ := ⟨c.x + r * Real.cos (radians deg), c.y + r * Real.sin (radians deg)⟩

/-- Distance of two points. -/
def distPt (p q : Pt ℝ) : ℝ := √((p.x - q.x) ^ 2 + (p.y - q.y) ^ 2)

/-- The points visited going from angle `a` through the signed angle `w` in `n` equal steps. -/
def sweep (c : Pt ℝ) (r a w : ℝ) (n : ℕ) : List (Pt ℝ) :=
  (List.range (n + 1)).map fun (i : ℕ) => onCircle c r (a + w * ((i : ℝ) / (n : ℝ)))

/-- Which signed angle an arc in a direction goes through. -/
def Goes (sa ea a w : ℝ) : Dir → Prop
  | .ccw => 0 ≤ w ∧ w < 360
  | .cw => -360 < w ∧ w ≤ 0
  | .none => a = sa ∧ w = ea - sa

end X7.Utils
