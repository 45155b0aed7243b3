import Verif.Model.RndVec
import Verif.Spec.Rnd

/-!
What is said about rounded vectors, sums and transforms.
-/

noncomputable section

namespace X7

/-- The matrix of a `Transform` after some calls, in exact arithmetic: the product of the matrices, those of calls that multiply
from the left (`true`) in front of what was there before, the others behind. -/
def exactHistory (ops : List (Bool × Mat3 ℝ)) : Mat3 ℝ :=
  ops.foldl (fun acc op => if op.1 then op.2.mul acc else acc.mul op.2) Mat3.one

/-- The matrix of sizes of the entries. -/
def Mat3.absM (m : Mat3 ℝ) : Mat3 ℝ := ⟨|m.a|, |m.b|, |m.c|, |m.d|, |m.e|, |m.f|, |m.g|, |m.h|, |m.i|⟩

/-- The sizes of the entries after some calls, if nothing cancels. -/
def sizeHistory (ops : List (Bool × Mat3 ℝ)) : Mat3 ℝ := exactHistory (ops.map fun op => (op.1, op.2.absM))

/-- All entries are floats. -/
def Mat3.RepM (R : Rnd) (m : Mat3 ℝ) : Prop :=
  (R.Rep m.a ∧ R.Rep m.b ∧ R.Rep m.c) ∧ (R.Rep m.d ∧ R.Rep m.e ∧ R.Rep m.f) ∧ R.Rep m.g ∧ R.Rep m.h ∧ R.Rep m.i

/-- The number of roundings of Python's `sum` of `n` numbers. -/
def sumRounds : SumMode → ℕ → ℕ
  | .plain, n => n
  | .compensated, n => 4 * n + 2

/-- The products in the formula for the area of a polygon, taken together without sign. -/
def areaSize (pts : List (Pt ℝ)) : ℝ := ((iterRotate2 pts).map fun ab => |ab.1.x| * |ab.2.y| + |ab.1.y| * |ab.2.x|).sum

/-- `math.hypot` is right up to a factor of `1 ± e`. -/
def HypotLaw (e : ℝ) (hyp : ℝ → ℝ → ℝ) : Prop := ∀ x y, |hyp x y - √(x * x + y * y)| ≤ e * √(x * x + y * y)

/-- `math.hypot` of a vector along an axis is exact. -/
def AxisHypot (hyp : ℝ → ℝ → ℝ) : Prop := ∀ x, hyp x 0 = |x| ∧ hyp 0 x = |x|

end X7
