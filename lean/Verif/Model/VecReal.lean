import Mathlib.Analysis.SpecialFunctions.Trigonometric.Basic
import Mathlib.Analysis.SpecialFunctions.Complex.Arg
import Verif.Model.Vec

/-!
The parts of `Vector` that use `math.hypot`, `math.cos`, `math.sin`, `math.atan2`
(x7/geom/geom.py 93-94, 131-151), over ℝ. `math.*` functions are taken to be the exact real functions.
-/

namespace X7
open Real

/-- `math.hypot(x, y)` (exact). -/
noncomputable def hypot (x y : ℝ) : ℝ := √(x * x + y * y)

/-- `math.radians(d)` (exact). -/
noncomputable def radians (d : ℝ) : ℝ := d * π / 180

/-- `math.degrees(r)` (exact). -/
noncomputable def degrees (r : ℝ) : ℝ := r * 180 / π

/-- `math.atan2(y, x)` (exact): the argument of `x + i y`, 0 for the zero vector. -/
noncomputable def atan2 (y x : ℝ) : ℝ := Complex.arg ⟨x, y⟩

namespace Vec

/-- geom.py:131-132 `Vector.length`. -/
noncomputable def length (v : Vec ℝ) : ℝ := hypot v.x v.y

/-- geom.py:134-136 `Vector.angle`, in degrees. -/
noncomputable def angle (v : Vec ℝ) : ℝ := degrees (atan2 v.y v.x)

/-- geom.py:138-143 `Vector.rotate`. -/
noncomputable def rotate (v : Vec ℝ) (deg : ℝ) : Vec ℝ :=
  let rads := radians deg
  let cos_a := cos rads
  let sin_a := sin rads
  ⟨cos_a * v.x - sin_a * v.y, sin_a * v.x + cos_a * v.y⟩

/-- geom.py:145-151 `Vector.unit`. -/
noncomputable def unit (v : Vec ℝ) : Except PyErr (Vec ℝ) :=
  let length := v.length
  if length = 0 then .error .zeroDivision
  else .ok ⟨v.x / length, v.y / length⟩

/-- geom.py:93-94 `Vector.close`. -/
def close (a b : Vec ℝ) (max_delta : ℝ) : Prop := (a.sub b).length < max_delta

end Vec

end X7
