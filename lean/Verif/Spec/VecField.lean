import Verif.Model.VecField

/-! What C56 and C57 say about vector fields, apart from the code. -/

noncomputable section

namespace X7.VF

/-- Meshes that can be used for lookups: two nodes or more, positive width and height. -/
structure Mesh.Fat (m : Mesh) : Prop where
  n : 2 ≤ m.n
  x : m.xl < m.xh
  y : m.yl < m.yh

/-- The bilinear blend of four values, `s` across and `t` up. -/
def blend (a00 a01 a10 a11 s t : ℝ) : ℝ := (1 - s) * ((1 - t) * a00 + t * a01) + s * ((1 - t) * a10 + t * a11)

/-- Whether `x` counts in the average at `i`: from two before to one after. -/
def Near (i x : ℕ) : Prop := i ≤ x + 2 ∧ x < i + 2

instance (i x : ℕ) : Decidable (Near i x) := inferInstanceAs (Decidable (_ ∧ _))

/-- The sum of `w * a` over the whole mesh. -/
def mean (n : ℕ) (w a : ℕ → ℕ → ℝ) : ℝ :=
  ((List.range n).map fun x => ((List.range n).map fun y => w x y * a x y).sum).sum

/-- Each node near by counts once, the node itself 20 times. -/
def score (i j x y : ℕ) : ℝ := if x = i ∧ y = j then 20 else if Near i x ∧ Near j y then 1 else 0

/-- The weight of `(x, y)` in the average at `(i, j)`: its share of the scores. -/
def weight (n i j x y : ℕ) : ℝ := score i j x y / mean n (score i j) fun _ _ => 1

end X7.VF
