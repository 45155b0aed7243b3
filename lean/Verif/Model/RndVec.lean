import Verif.Model.Rnd
import Verif.Model.VecReal

/-!
Rounded versions of the functions on vectors, of sums and areas, and of the history of a `Transform`. See Model/Rnd.lean.
-/

noncomputable section

namespace X7

/-- How Python's `sum` adds floats: up to 3.11 from the left; from 3.12 from the left with a compensation (Neumaier) that is
added at the end. -/
inductive SumMode
  | plain
  | compensated
  deriving DecidableEq

namespace Fl
variable (R : Rnd)

/-- Python's `sum` of a list of floats up to 3.11, starting at 0. -/
def sumPlain (xs : List ℝ) : ℝ := xs.foldl (fun acc x => R.fl (acc + x)) 0

/-- One step of `sum` from 3.12: `f_result` and the compensation `c`. -/
def sumStep (fc : ℝ × ℝ) (x : ℝ) : ℝ × ℝ :=
  let t := R.fl (fc.1 + x)
  (t, if |x| ≤ |fc.1| then R.fl (fc.2 + R.fl (R.fl (fc.1 - t) + x)) else R.fl (fc.2 + R.fl (R.fl (x - t) + fc.1)))

/-- Python's `sum` of a list of floats from 3.12. The test `if c` before the last addition is left out: adding 0 to a float
gives the float. -/
def sumComp (xs : List ℝ) : ℝ :=
  let fc := xs.foldl (sumStep R) (0, 0)
  R.fl (fc.1 + fc.2)

/-- Python's `sum`. -/
def sum (mode : SumMode) (xs : List ℝ) : ℝ :=
  match mode with
  | .plain => sumPlain R xs
  | .compensated => sumComp R xs

/-- geom.py:415-417 `polygon_area`, see `polygonArea`. -/
def polygonArea (mode : SumMode) (points : List (Pt ℝ)) : ℝ :=
  R.fl (sum R mode ((iterRotate2 points).map fun ab => R.fl (R.fl (ab.1.x * ab.2.y) - R.fl (ab.1.y * ab.2.x))) / 2)

/-- geom.py:145-151 `Vector.unit`; `hyp` is `math.hypot`, see `Vec.unit`. -/
def unit (hyp : ℝ → ℝ → ℝ) (v : Vec ℝ) : Except PyErr (Vec ℝ) :=
  if hyp v.x v.y = 0 then .error .zeroDivision
  else .ok ⟨R.fl (v.x / hyp v.x v.y), R.fl (v.y / hyp v.x v.y)⟩

/-- geom.py:138-143 `Vector.rotate`, given the computed cosine and sine. -/
def rotate (cos_a sin_a : ℝ) (v : Vec ℝ) : Vec ℝ :=
  ⟨R.fl (R.fl (cos_a * v.x) - R.fl (sin_a * v.y)), R.fl (R.fl (sin_a * v.x) + R.fl (cos_a * v.y))⟩

/-- geom.py:153-156 `Vector.normal`: no rounding. -/
def normal (v : Vec ℝ) : Vec ℝ := ⟨v.y, -v.x⟩

/-- geom.py:499-506 `PointRelative.fromxy(x, y, base).xy()`: the coordinates are stored relative to the base and added again. -/
def relativeXY (p base : Pt ℝ) : Pt ℝ :=
  ⟨R.fl (R.fl (p.x - base.x) + base.x), R.fl (R.fl (p.y - base.y) + base.y)⟩

/-- transform.py:42-48, 190-199, 222-254 the matrix of a `Transform` after some calls: each call multiplies the matrix from the
left (`translate`, `scale`, `rotate`, `rotate_ccw`, `compose_outer`: `true`) or from the right (`compose`: `false`) by a matrix. -/
def history (mode : DotMode) (ops : List (Bool × Mat3 ℝ)) : Mat3 ℝ :=
  ops.foldl (fun acc op => if op.1 then mul R mode op.2 acc else mul R mode acc op.2) Mat3.one

end Fl
end X7
