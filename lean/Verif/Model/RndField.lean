import Verif.Model.RndShapes
import Verif.Model.VecField

/-!
Rounded versions of the functions of vector fields (x7/geom/vec_field.py), of `scale_bbox` with `keep_aspect` and of `canvas_fit`
(transform.py). See Model/Rnd.lean.
-/

noncomputable section

namespace X7
namespace Fl
variable (R : Rnd)

/-- vec_field.py:132-134 `scaled(sx, sy=None)`. -/
def fieldScaled (f : VF.Field) (sx : ℝ) (sy : Option ℝ) : VF.Field :=
  let sy := match sy with | some s => s | none => sx
  ⟨f.mesh, fun i j => R.fl (f.vx i j * sx), fun i j => R.fl (f.vy i j * sy)⟩

/-- vec_field.py:103 the magnitudes: four functions of numpy, each of which rounds its result to the nearest. -/
def fieldMag (f : VF.Field) (i j : ℕ) : ℝ :=
  R.fl √(R.fl (R.fl (f.vx i j * f.vx i j) + R.fl (f.vy i j * f.vy i j)))

/-- vec_field.py:102-107 `normalized()`, see `VF.Field.normalized`: the reciprocal of the largest magnitude is rounded before it
is used as a factor. -/
def fieldNormalized (f : VF.Field) : Except PyErr (Option VF.Field) :=
  if f.mesh.n = 0 then .error .value
  else
    let maxMag := VF.amax f.mesh.n (fieldMag R f)
    if maxMag = 0 then .ok none
    else .ok (some ⟨f.mesh, fun i j => R.fl (f.vx i j * R.fl (1 / maxMag)), fun i j => R.fl (f.vy i j * R.fl (1 / maxMag))⟩)

/-- vec_field.py:115-122 the running sum `u` over the window, row by row, that starts at 0. -/
def fieldWindowSum (n : ℕ) (a : ℕ → ℕ → ℝ) (i j : ℕ) : ℝ :=
  (VF.window n i).foldl (fun u x => (VF.window n j).foldl (fun u y => R.fl (u + a x y)) u) 0

/-- vec_field.py:123-128 the weight of the centre and the division. -/
def fieldSmoothVal (n : ℕ) (a : ℕ → ℕ → ℝ) (i j : ℕ) : ℝ :=
  let centerWeight : ℝ := 20 - 1
  R.fl (R.fl (fieldWindowSum R n a i j + R.fl (centerWeight * a i j)) / ((VF.windowCount n i j : ℝ) + centerWeight))

/-- vec_field.py:109-130 `smoothed()`. -/
def fieldSmoothed (f : VF.Field) : Except PyErr (Option VF.Field) :=
  fieldNormalized R ⟨f.mesh, fieldSmoothVal R f.mesh.n f.vx, fieldSmoothVal R f.mesh.n f.vy⟩

/-- transform.py:206-215 `Transform().scale_bbox(start, target, keep_aspect=True)`. -/
def scaleBBoxKeep (mode : DotMode) (start target : BBox ℝ) : Except PyErr (Mat3 ℝ) :=
  if width R start = 0 ∨ height R start = 0 then .error .zeroDivision
  else
    let scale := min (R.fl (width R target / width R start)) (R.fl (height R target / height R start))
    match start with
    | .none => .error .type
    | .box xl yl _ _ =>
      let wExtra := R.fl (width R target - R.fl (width R start * scale))
      let hExtra := R.fl (height R target - R.fl (height R start * scale))
      match target with
      | .none => .error .type
      | .box txl tyl _ _ =>
        .ok (history R mode [(true, Mat3.translateMat (-xl) (-yl)), (true, Mat3.scaleMat scale scale),
          (true, Mat3.translateMat (R.fl (txl + R.fl (wExtra / 2))) (R.fl (tyl + R.fl (hExtra / 2))))])

/-- transform.py:273-276 `canvas_fit(canvas_size, zoom, zero_zero)`; the width of the canvas is not used. -/
def canvasFit (mode : DotMode) (w h zoom zx zy : ℝ) : Mat3 ℝ :=
  let _ := w
  history R mode [(true, Mat3.scaleMat zoom zoom), (true, Mat3.translateMat zx zy), (true, Mat3.scaleMat 1 (-1)),
    (true, Mat3.translateMat 0 h)]

end Fl
end X7
