import Verif.Spec.Shapes
import Verif.Spec.Utils

/-!
What it means that a list of points joined by straight lines is close to a curve.
-/

namespace X7.Approx
open X7.Utils (distPt)

/-- The point a fraction `v` of the way from `p` to `q`. -/
def between (p q : Pt ℝ) (v : ℝ) : Pt ℝ := ⟨p.x + v * (q.x - p.x), p.y + v * (q.y - p.y)⟩

/-- The lines that join each point of a list to the next one: what one sees when the list is plotted. -/
def joined (ps : List (Pt ℝ)) : Set (Pt ℝ) :=
  {q | ∃ (i : ℕ) (p p' : Pt ℝ), ps[i]? = some p ∧ ps[i + 1]? = some p' ∧ ∃ v, 0 ≤ v ∧ v ≤ 1 ∧ q = between p p' v}

/-- Every point of `A` has a point of `B` at most `ε` away. -/
def Within (ε : ℝ) (A B : Set (Pt ℝ)) : Prop := ∀ p ∈ A, ∃ q ∈ B, distPt p q ≤ ε

/-- How far two sets are apart at most, seen from both: the Hausdorff distance is at most `ε`. -/
def Close (ε : ℝ) (A B : Set (Pt ℝ)) : Prop := Within ε A B ∧ Within ε B A

/-- How much a segment bends: the larger of the two second differences of its control polygon. It is zero for a straight line
traversed at constant speed. -/
noncomputable def bend (s : Poly4 ℝ) : ℝ :=
  max (√((s.a.x - 2 * s.b.x + s.c.x) ^ 2 + (s.a.y - 2 * s.b.y + s.c.y) ^ 2))
    (√((s.b.x - 2 * s.c.x + s.d.x) ^ 2 + (s.b.y - 2 * s.c.y + s.d.y) ^ 2))

/-- The points of a list of segments. -/
def traced (ss : List (Poly4 ℝ)) : Set (Pt ℝ) := {q | ∃ s ∈ ss, ∃ t, 0 ≤ t ∧ t ≤ 1 ∧ q = s.at' t}

end X7.Approx
