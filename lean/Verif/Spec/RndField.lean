import Verif.Model.VecField
import Verif.Model.Mat3

/-!
What is said about rounded fields and inverse transforms.
-/

noncomputable section

namespace X7

/-- Two numbers have the same sign (or are both 0), and neither is larger than `q` times the other. -/
def WithinFactor (q x' x : ℝ) : Prop := 0 ≤ x' * x ∧ |x'| ≤ q * |x| ∧ |x| ≤ q * |x'|

/-- No two entries below `n` have different signs. -/
def OneSign (n : ℕ) (a : ℕ → ℕ → ℝ) : Prop :=
  (∀ i j, i < n → j < n → 0 ≤ a i j) ∨ (∀ i j, i < n → j < n → a i j ≤ 0)

/-- The length of the vector of a field at an index. -/
def fieldLen (f : VF.Field) (i j : ℕ) : ℝ := √(f.vx i j ^ 2 + f.vy i j ^ 2)

/-- The entries of the upper two rows of a matrix differ from those of the identity by at most `η`. -/
def NearOne (η : ℝ) (m : Mat3 ℝ) : Prop :=
  (|m.a - 1| ≤ η ∧ |m.b| ≤ η ∧ |m.c| ≤ η) ∧ |m.d| ≤ η ∧ |m.e - 1| ≤ η ∧ |m.f| ≤ η

end X7
