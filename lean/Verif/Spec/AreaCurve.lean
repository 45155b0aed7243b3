import Verif.Spec.Approx
import Mathlib.MeasureTheory.Integral.IntervalIntegral.Basic
import Mathlib.Analysis.Calculus.Deriv.Basic

/-!
The area enclosed by a curve.
-/

namespace X7.Approx

/-- The signed area that the line from the origin sweeps over while a point runs along a segment: half the integral of
`x dy - y dx`. -/
noncomputable def swept (s : Poly4 ℝ) : ℝ :=
  (∫ t in (0 : ℝ)..1, ((s.at' t).x * deriv (fun u => (s.at' u).y) t - (s.at' t).y * deriv (fun u => (s.at' u).x) t)) / 2

/-- The signed area enclosed by a closed curve (Green's formula): positive if it runs counter-clockwise. -/
noncomputable def enclosed (ss : List (Poly4 ℝ)) : ℝ := (ss.map swept).sum

/-- The curve `c0 + c1 t + c2 t² + c3 t³` of a control polygon: `c1`. -/
def Poly4.c1 (s : Poly4 ℝ) : Pt ℝ := ⟨3 * (s.b.x - s.a.x), 3 * (s.b.y - s.a.y)⟩
/-- `c2`. -/
def Poly4.c2 (s : Poly4 ℝ) : Pt ℝ := ⟨3 * (s.a.x - 2 * s.b.x + s.c.x), 3 * (s.a.y - 2 * s.b.y + s.c.y)⟩
/-- `c3`. -/
def Poly4.c3 (s : Poly4 ℝ) : Pt ℝ :=
  ⟨s.d.x - 3 * s.c.x + 3 * s.b.x - s.a.x, s.d.y - 3 * s.c.y + 3 * s.b.y - s.a.y⟩

/-- The cross product. -/
def cr (p q : Pt ℝ) : ℝ := p.x * q.y - p.y * q.x

/-- The part of the error of an area that goes with the square of the step. -/
noncomputable def err2 (s : Poly4 ℝ) : ℝ :=
  cr (Poly4.c1 s) (Poly4.c2 s) / 6 + cr (Poly4.c1 s) (Poly4.c3 s) / 4 + cr (Poly4.c2 s) (Poly4.c3 s) / 6

/-- The part that goes with the fourth power. -/
noncomputable def err4 (s : Poly4 ℝ) : ℝ := cr (Poly4.c2 s) (Poly4.c3 s) / 15

/-- By what a transform multiplies areas. -/
def det2 (m : Mat3 ℝ) : ℝ := m.a * m.e - m.b * m.d

end X7.Approx
