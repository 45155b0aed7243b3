import Verif.Model.RndVec
import Verif.Model.Shapes
import Verif.Model.Utils

/-!
Rounded versions of the functions that make arcs, ellipses and rounded rectangles (x7/geom/utils.py, model.py) and of
`scale_bbox` (transform.py). See Model/Rnd.lean.
-/

noncomputable section

namespace X7
namespace Fl
variable (R : Rnd)

/-- C's `fmod(a, m)` for `m > 0`: exact, with the sign of `a`. -/
def fmod (a m : ℝ) : ℝ := a - m * (if 0 ≤ a then (⌊a / m⌋ : ℝ) else (⌈a / m⌉ : ℝ))

/-- Python's `a % m` on floats, `m > 0`: `fmod`, and `m` added, with a rounding, if that is negative. -/
def pyMod (a m : ℝ) : ℝ := if fmod a m < 0 then R.fl (fmod a m + m) else fmod a m

/-- utils.py:22-31 `min_rotation`. -/
def minRotation (target source : ℝ) : ℝ := R.fl (pyMod R (R.fl (R.fl (target - source) + 180)) 360 - 180)

/-- utils.py:78-87 the angles of `arc` after adjustment. -/
def arcAngles (sa ea : ℝ) : Utils.Dir → ℝ × ℝ
  | .ccw =>
    let sa := pyMod R sa 360
    let ea := pyMod R ea 360
    (sa, if ea < sa then R.fl (ea + 360) else ea)
  | .cw =>
    let sa := pyMod R sa 360
    let ea := pyMod R ea 360
    (if sa < ea then R.fl (sa + 360) else sa, ea)
  | .none => (sa, ea)

/-- utils.py:89 `int(abs(ea-sa)+1) if steps < 0 else steps`. -/
def arcSteps (sa ea : ℝ) (steps : ℤ) : ℕ :=
  if steps < 0 then ⌊R.fl (|R.fl (ea - sa)| + 1)⌋₊ else steps.toNat

/-- The functions of the standard library and of x7.lib that `arc` and `arc2p` call, as computed: `math.cos`, `math.sin`,
`math.radians`, `math.sqrt`, `math.hypot`, `Vector.angle` and `t_range`. -/
structure ArcLib where
  cos : ℝ → ℝ
  sin : ℝ → ℝ
  rad : ℝ → ℝ
  sqrt : ℝ → ℝ
  hyp : ℝ → ℝ → ℝ
  angle : Vec ℝ → ℝ
  trange : ℕ → ℝ → ℝ → List ℝ

/-- utils.py:90 `(r * cos(t) + c.x, r * sin(t) + c.y)`. -/
def arcPoint (L : ArcLib) (r : ℝ) (c : Pt ℝ) (t : ℝ) : Pt ℝ :=
  ⟨R.fl (R.fl (r * L.cos t) + c.x), R.fl (R.fl (r * L.sin t) + c.y)⟩

/-- utils.py:66-90 `arc`. -/
def arc (L : ArcLib) (r sa ea : ℝ) (c : Pt ℝ) (steps : ℤ) (dir : Utils.Dir) : List (Pt ℝ) :=
  let a := arcAngles R sa ea dir
  (L.trange (arcSteps R a.1 a.2 steps) (L.rad a.1) (L.rad a.2)).map (arcPoint R L r c)

/-- utils.py:93-117 `arc2p`. `math.sqrt` of a negative number is a `ValueError`. -/
def arc2p (L : ArcLib) (r : ℝ) (s e : Pt ℝ) (steps : ℤ) (side : ℝ) : Except PyErr (List (Pt ℝ)) :=
  let v := sub R e s
  let vl := R.fl (L.hyp v.x v.y / 2)
  if r < vl then .error .value
  else if vl = 0 then .error .value
  else
    let mp := addVector R s (smul R v (1 / 2))
    match unit R L.hyp (smul R (normal v) side) with
    | .error x => .error x
    | .ok clv =>
      let d := R.fl (R.fl (r * r) - R.fl (vl * vl))
      if d < 0 then .error .value
      else
        let c := addVector R mp (smul R clv (L.sqrt d))
        .ok ([e, c, s] ++ arc R L r (L.angle (sub R s c)) (L.angle (sub R e c)) c steps .ccw)

/-- geom.py:404-408 point minus Vector, see `Pt.subVec`. -/
def subVec (p : Pt ℝ) (v : Vec ℝ) : Pt ℝ := ⟨R.fl (p.x - v.x), R.fl (p.y - v.y)⟩

/-- model.py:712-726 `make_ellipse_cps(center, r_x, r_y)`; `b90` is the computed `4/3 * math.tan(math.radians(90/4))`. -/
def makeEllipseCps (b90 : ℝ) (center : Pt ℝ) (r_x r_y : ℝ) : List (CP ℝ) :=
  let vr : Vec ℝ := ⟨r_x, 0⟩
  let vrb := smul R vr b90
  let vu : Vec ℝ := ⟨0, r_y⟩
  let vub := smul R vu b90
  [⟨addVector R center vr, vub, vub.neg, "smooth"⟩,
   ⟨subVec R center vu, vrb, vrb.neg, "smooth"⟩,
   ⟨subVec R center vr, vub.neg, vub, "smooth"⟩,
   ⟨addVector R center vu, vrb.neg, vrb, "smooth"⟩]

/-- model.py:707-709 `make_ellipse_p1p2_cps`. -/
def makeEllipseP1P2 (b90 : ℝ) (p1 p2 : Pt ℝ) : Except PyErr (List (CP ℝ)) := do
  let bb := BBox.ofPts p1 p2
  let c ← center R bb
  .ok (makeEllipseCps R b90 c (R.fl (width R bb / 2)) (R.fl (height R bb / 2)))

/-- model.py:685-686 `ab.unit()*new_radius if ab_len else Vector(0, 0)`. -/
def cornerSide (hyp : ℝ → ℝ → ℝ) (v : Vec ℝ) (len new_radius : ℝ) : Except PyErr (Vec ℝ) :=
  if len ≠ 0 then (unit R hyp v).map (smul R · new_radius) else .ok ⟨0, 0⟩

/-- model.py:687-688 `min(ab_len - new_radius, new_radius)/new_radius if new_radius else 0`. -/
def cornerScale (len new_radius : ℝ) : ℝ :=
  if new_radius ≠ 0 then R.fl (min (R.fl (len - new_radius)) new_radius / new_radius) else 0

/-- model.py:677-694 the body of the first loop of `make_rounded_rect_cps`, see `roundedCorner`; `hyp` is `math.hypot`, `b90`
the computed `4/3 * math.tan(math.radians(90/4))`. -/
def roundedCorner (hyp : ℝ → ℝ → ℝ) (b90 radius : ℝ) (a b c : Pt ℝ) : Except PyErr (CP ℝ × CP ℝ) := do
  let ab := sub R a b
  let cb := sub R c b
  let ab_len := R.fl (hyp ab.x ab.y / 2)
  let cb_len := R.fl (hyp cb.x cb.y / 2)
  let new_radius := min radius (min ab_len cb_len)
  let ab ← cornerSide R hyp ab ab_len new_radius
  let cb ← cornerSide R hyp cb cb_len new_radius
  let ab_scale := cornerScale R ab_len new_radius
  let cb_scale := cornerScale R cb_len new_radius
  let bab := addVector R b ab
  let bcb := addVector R b cb
  let ab := smul R ab b90
  let cb := smul R cb b90
  .ok (⟨bab, smul R ab ab_scale, ab.neg, "smooth"⟩, ⟨bcb, cb.neg, smul R cb cb_scale, "smooth"⟩)

/-- model.py:669-704 `make_rounded_rect_cps(p1, p2, radius)`; the loop that removes duplicates compares without rounding and is
`dedupe`. -/
def makeRoundedRect (hyp : ℝ → ℝ → ℝ) (b90 : ℝ) (p1 p2 : Pt ℝ) (radius : ℝ) : Except PyErr (List (CP ℝ)) := do
  let pts : List (Pt ℝ) := [p1, ⟨p1.x, p2.y⟩, p2, ⟨p2.x, p1.y⟩]
  let pairs ← (iterRotate3m1 pts).mapM fun abc => roundedCorner R hyp b90 radius abc.1 abc.2.1 abc.2.2
  let cps := pairs.flatMap fun lr => [lr.1, lr.2]
  .ok (dedupe cps)

/-- transform.py:206-220 `Transform().scale_bbox(start, target)` without `keep_aspect`: the matrix afterwards. -/
def scaleBBox (mode : DotMode) (start target : BBox ℝ) : Except PyErr (Mat3 ℝ) :=
  match start with
  | .none => .error .type
  | .box xl yl _ _ =>
    if width R start = 0 ∨ height R start = 0 then .error .zeroDivision
    else
      match target with
      | .none => .error .type
      | .box txl tyl _ _ =>
        .ok (history R mode [(true, Mat3.translateMat (-xl) (-yl)),
          (true, Mat3.scaleMat (R.fl (width R target / width R start)) (R.fl (height R target / height R start))),
          (true, Mat3.translateMat txl tyl)])

/-- transform.py:282-285 `transform_width`, given what `scale_vals` (200-204) computes. -/
def transformWidth (hyp : ℝ → ℝ → ℝ) (m : Mat3 ℝ) (width : ℝ) : ℝ :=
  R.fl (R.fl (width * R.fl (|hyp m.a m.d| + |hyp m.b m.e|)) / 2)

end Fl
end X7
