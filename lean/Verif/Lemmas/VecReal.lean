import Mathlib.Tactic.Ring
import Mathlib.Tactic.NormNum
import Mathlib.Tactic.FieldSimp
import Mathlib.Tactic.LinearCombination
import Mathlib.Tactic.Positivity
import Mathlib.Tactic.Linarith
import Verif.Model.VecReal

namespace X7
open Real

theorem hypot_nonneg (x y : ℝ) : 0 ≤ hypot x y := Real.sqrt_nonneg _

theorem hypot_sq (x y : ℝ) : hypot x y * hypot x y = x * x + y * y :=
  Real.mul_self_sqrt (by nlinarith [mul_self_nonneg x, mul_self_nonneg y])

theorem hypot_eq_zero {x y : ℝ} : hypot x y = 0 ↔ x = 0 ∧ y = 0 := by
  constructor
  · intro h
    have h2 := hypot_sq x y
    rw [h] at h2
    constructor <;> nlinarith [mul_self_nonneg x, mul_self_nonneg y]
  · rintro ⟨rfl, rfl⟩
    simp [hypot]

theorem hypot_pos {x y : ℝ} (h : ¬ (x = 0 ∧ y = 0)) : 0 < hypot x y :=
  lt_of_le_of_ne (hypot_nonneg x y) (fun e => h (hypot_eq_zero.1 e.symm))

/-- `hypot` is determined by its square and sign. -/
theorem hypot_unique {x y r : ℝ} (hr : 0 ≤ r) (h : r * r = x * x + y * y) : hypot x y = r := by
  rw [hypot, ← h, Real.sqrt_mul_self hr]

theorem hypot_mul (x y k : ℝ) : hypot (x * k) (y * k) = hypot x y * |k| := by
  apply hypot_unique (mul_nonneg (hypot_nonneg _ _) (abs_nonneg _))
  have := hypot_sq x y
  have h2 := abs_mul_abs_self k
  calc hypot x y * |k| * (hypot x y * |k|) = (hypot x y * hypot x y) * (|k| * |k|) := by ring
    _ = _ := by rw [this, h2]; ring

theorem Vec.length_nonneg (v : Vec ℝ) : 0 ≤ v.length := hypot_nonneg _ _

theorem Vec.length_sq (v : Vec ℝ) : v.length * v.length = v.dot v := hypot_sq _ _

theorem Vec.length_eq_zero {v : Vec ℝ} : v.length = 0 ↔ v = ⟨0, 0⟩ := by
  rw [Vec.length, hypot_eq_zero, Vec.ext_iff]

theorem Vec.length_pos {v : Vec ℝ} (h : v ≠ ⟨0, 0⟩) : 0 < v.length :=
  lt_of_le_of_ne (Vec.length_nonneg v) (fun e => h (Vec.length_eq_zero.1 e.symm))

theorem Vec.unit_ok {v : Vec ℝ} (h : v ≠ ⟨0, 0⟩) :
    v.unit = .ok ⟨v.x / v.length, v.y / v.length⟩ := by
  have : v.length ≠ 0 := (Vec.length_pos h).ne'
  simp [Vec.unit, this]

theorem Vec.unit_zero : (⟨0, 0⟩ : Vec ℝ).unit = .error .zeroDivision := by
  have : (⟨0, 0⟩ : Vec ℝ).length = 0 := Vec.length_eq_zero.2 rfl
  simp [Vec.unit, this]

theorem radians_add (a b : ℝ) : radians (a + b) = radians a + radians b := by
  simp [radians]; ring

theorem radians_neg (a : ℝ) : radians (-a) = -radians a := by
  simp [radians]; ring

theorem radians_degrees (r : ℝ) : radians (degrees r) = r := by
  have := Real.pi_ne_zero
  simp [radians, degrees]

theorem degrees_radians (r : ℝ) : degrees (radians r) = r := by
  have := Real.pi_ne_zero
  simp [radians, degrees]

end X7
