import Verif.Model.VecField

noncomputable section

namespace X7.VF

/-- `field.smoothed()`, called `k` times, each time on the last result, as `animate` does (vec_field.py:137-157). It stops at an exception or
at a field of `nan`s. -/
def Field.smoothMany : ℕ → Field → Except PyErr (Option Field)
  | 0, f => .ok (some f)
  | k + 1, f =>
    match f.smoothed with
    | .ok (some g) => g.smoothMany k
    | r => r

/-- Every vector of the field differs from `u` by at most `e` in each component. -/
def Field.Nearly (f : Field) (u : Vec ℝ) (e : ℝ) : Prop :=
  ∀ i j, i < f.mesh.n → j < f.mesh.n → |f.vx i j - u.x| ≤ e ∧ |f.vy i j - u.y| ≤ e

/-- All vectors of the field point to the same side of some line through the origin. -/
def Field.OneSided (f : Field) : Prop := ∃ d : Vec ℝ, ∀ i j, i < f.mesh.n → j < f.mesh.n → 0 < d.x * f.vx i j + d.y * f.vy i j

end X7.VF
