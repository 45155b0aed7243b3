import Verif.Model.RndLine
import Verif.Spec.RndVec

/-!
What is said about rounded lines.
-/

namespace X7

/-- The coordinates of origin and direction are floats. -/
def Rnd.RepLine (R : Rnd) (l : Line ℝ) : Prop := R.RepPt l.origin ∧ R.Rep l.direction.x ∧ R.Rep l.direction.y

/-- The coordinates of origin and direction are whole numbers of size at most `B`. -/
def Line.Whole (B : ℝ) (l : Line ℝ) : Prop :=
  ∃ a b c d : ℤ, l = ⟨⟨a, b⟩, ⟨c, d⟩⟩ ∧ |(a : ℝ)| ≤ B ∧ |(b : ℝ)| ≤ B ∧ |(c : ℝ)| ≤ B ∧ |(d : ℝ)| ≤ B

end X7
