import Verif.Spec.Bezier

namespace X7

/-- The curve drawn by a closed list of control points, as a set of points. -/
def curveSet (closed : Bool) (cps : List (CP ℝ)) : Set (Pt ℝ) :=
  {q | ∃ s ∈ segs closed cps, ∃ t, 0 ≤ t ∧ t ≤ 1 ∧ q = s.at' t}

/-- How far out a point is from the centre of an ellipse, measured so that the ellipse is where this is one: the distance
from the centre after scaling the ellipse to the unit circle. -/
noncomputable def ellipseRadius (c : Pt ℝ) (rx ry : ℝ) (q : Pt ℝ) : ℝ :=
  √(((q.x - c.x) / rx) ^ 2 + ((q.y - c.y) / ry) ^ 2)

/-- The point of the ellipse at an angle. -/
noncomputable def ellipsePoint (c : Pt ℝ) (rx ry θ : ℝ) : Pt ℝ := ⟨c.x + rx * Real.cos θ, c.y + ry * Real.sin θ⟩

/-- A segment runs within 0.03 percent of the circle of radius `r` about `o`, never inside it. -/
def ArcOf (o : Pt ℝ) (r : ℝ) (s : Poly4 ℝ) : Prop :=
  ∀ t, 0 ≤ t → t ≤ 1 → r ≤ √(((s.at' t).x - o.x) ^ 2 + ((s.at' t).y - o.y) ^ 2) ∧
    √(((s.at' t).x - o.x) ^ 2 + ((s.at' t).y - o.y) ^ 2) ≤ r * (1 + 3 / 10000)

/-- A segment runs along an edge line of the rectangle with the opposite corners `p1`, `p2`. -/
def OnEdge (p1 p2 : Pt ℝ) (s : Poly4 ℝ) : Prop :=
  (∀ t, (s.at' t).x = p1.x) ∨ (∀ t, (s.at' t).x = p2.x) ∨ (∀ t, (s.at' t).y = p1.y) ∨ ∀ t, (s.at' t).y = p2.y

/-- A point at the distance `r` from a vertical and from a horizontal edge of the rectangle, on the inside: the middle of a
rounded corner. -/
def InnerCorner (p1 p2 : Pt ℝ) (r : ℝ) (o : Pt ℝ) : Prop :=
  (o.x = min p1.x p2.x + r ∨ o.x = max p1.x p2.x - r) ∧ (o.y = min p1.y p2.y + r ∨ o.y = max p1.y p2.y - r)

end X7
