import Verif.Spec.AreaCurve

/-!
The length of a curve.
-/

noncomputable section

namespace X7.Approx
open X7.Utils (distPt)

/-- The length of a segment: the integral of its speed. -/
def arcLen (s : Poly4 ℝ) : ℝ :=
  ∫ t in (0 : ℝ)..1, √(deriv (fun u => (s.at' u).x) t ^ 2 + deriv (fun u => (s.at' u).y) t ^ 2)

/-- The length of a curve made of segments. -/
def curveLen (ss : List (Poly4 ℝ)) : ℝ := (ss.map arcLen).sum

/-- The length of the lines that join each point of a list to the next one. -/
def lineLen : List (Pt ℝ) → ℝ
  | p :: q :: r => distPt p q + lineLen (q :: r)
  | _ => 0

/-- The transform multiplies all distances by `k`. -/
def Scales (m : Mat3 ℝ) (k : ℝ) : Prop := ∀ p q, distPt (m.apply p) (m.apply q) = k * distPt p q

end X7.Approx
