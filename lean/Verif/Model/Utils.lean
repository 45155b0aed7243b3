import Mathlib.Algebra.Order.Floor.Ring
import Verif.Model.Transform

/-!
Model of x7/geom/utils.py 15-139: angles, paths, arcs and marker shapes.
-/

noncomputable section

namespace X7.Utils
open X7

/-- Python's `a % m` on numbers, `m > 0` (exact). -/
def pyMod (a m : ℝ) : ℝ := a - m * ⌊a / m⌋

/-- utils.py:22-31 `min_rotation`. -/
def minRotation (target source : ℝ) : ℝ := pyMod (target - source + 180) 360 - 180

/-- What lists of points hold: a point object, a tuple `(x, y)`, or something else. -/
inductive Item
  | pt (p : Pt ℝ)
  | xy (p : Pt ℝ)
  | other

/-- utils.py:15-19 `check_point_list`. -/
def checkPointList : List Item → Except PyErr Unit
  | [] => .ok ()
  | .pt _ :: rest => checkPointList rest
  | _ :: _ => .error .value

/-- transform.py:96-99 `t.transform_pt(pt, as_pt)`: `pt.x` of something that is not a point is an `AttributeError`. -/
def transformPt (t : TState) (asPt : Bool) : Item → Except PyErr Item
  | .pt p => .ok (if asPt then .pt (t.transform p) else .xy (t.transform p))
  | _ => .error .attribute

/-- utils.py:34-38 `path_rotate`. -/
def pathRotate (path : List Item) (angle : ℝ) (asPt : Bool) : Except PyErr (List Item) :=
  path.mapM (transformPt (TState.new.rotate angle) asPt)

/-- utils.py:41-44 `path_rotate_ccw`. -/
def pathRotateCcw (path : List Item) (angle : ℝ) (asPt : Bool) : Except PyErr (List Item) :=
  path.mapM (transformPt (TState.new.rotateCcw angle) asPt)

/-- `p + dxy` or `(p + dxy).xy()`: a tuple plus a Vector is a `TypeError`. Simplification: other things that are not points also
give a `TypeError`. -/
def translateItem (d : Vec ℝ) (asPt : Bool) : Item → Except PyErr Item
  | .pt p => .ok (if asPt then .pt (p.addVector d) else .xy (p.addVector d))
  | _ => .error .type

/-- utils.py:47-53 `path_translate`; `dxy` is a point or a Vector, of which only `xy()` is used. -/
def pathTranslate (path : List Item) (d : Vec ℝ) (asPt : Bool) : Except PyErr (List Item) :=
  path.mapM (translateItem d asPt)

/-- `p.xy()`. -/
def itemXy : Item → Except PyErr Item
  | .pt p => .ok (.xy p)
  | _ => .error .attribute

/-- utils.py:56-58 `path_to_xy`. -/
def pathToXy (path : List Item) : Except PyErr (List Item) := path.mapM itemXy

/-- `Point(*p)`: a tuple or a point can be unpacked. -/
def itemPoint : Item → Except PyErr Item
  | .pt p => .ok (.pt p)
  | .xy p => .ok (.pt p)
  | .other => .error .type

/-- utils.py:61-63 `path_from_xy`. -/
def pathFromXy (path : List Item) : Except PyErr (List Item) := path.mapM itemPoint

/-- `x7.lib.iters.t_range(steps, low, high)`, closed: `steps + 1` values (library assumption, DESIGN.md section 3, for
`steps ≥ 1`; no theorem is about `steps = 0`). -/
def tRange (steps : ℕ) (low high : ℝ) : List ℝ :=
  (List.range (steps + 1)).map fun (i : ℕ) => low + (i : ℝ) / (steps : ℝ) * (high - low)

/-- The values of `direction`. -/
inductive Dir
  | ccw | cw | none
  deriving DecidableEq

/-- utils.py:78-87 the angles after adjustment. -/
def arcAngles (sa ea : ℝ) : Dir → ℝ × ℝ
  | .ccw =>
    let sa := pyMod sa 360
    let ea := pyMod ea 360
    (sa, if ea < sa then ea + 360 else ea)
  | .cw =>
    let sa := pyMod sa 360
    let ea := pyMod ea 360
    (if sa < ea then sa + 360 else sa, ea)
  | .none => (sa, ea)

/-- utils.py:89 `int(abs(ea-sa)+1) if steps < 0 else steps`. -/
def arcSteps (sa ea : ℝ) (steps : ℤ) : ℕ := if steps < 0 then ⌊|ea - sa| + 1⌋₊ else steps.toNat

/-- utils.py:66-90 `arc`. -/
def arc (r sa ea : ℝ) (c : Pt ℝ) (steps : ℤ) (dir : Dir) : List (Pt ℝ) :=
  let a := arcAngles sa ea dir
  (tRange (arcSteps a.1 a.2 steps) (radians a.1) (radians a.2)).map fun t =>
    ⟨r * Real.cos t + c.x, r * Real.sin t + c.y⟩

/-- utils.py:93-117 `arc2p`. -/
def arc2p (r : ℝ) (s e : Pt ℝ) (steps : ℤ) (side : ℝ) : Except PyErr (List (Pt ℝ)) :=
  let v := e.sub s
  let vl := v.length / 2
  if r < vl then .error .value
  else if vl = 0 then .error .value
  else
    let mp := s.addVector (v.mul (1 / 2))
    match (v.normal.mul side).unit with
    | .error x => .error x
    | .ok clv =>
      let cll := √(r * r - vl * vl)
      let c := mp.addVector (clv.mul cll)
      let sv := s.sub c
      let ev := e.sub c
      .ok ([e, c, s] ++ arc r sv.angle ev.angle c steps .ccw)

/-- utils.py:120-123 `circle`. -/
def circle (r : ℝ) (c : Pt ℝ) : List (Pt ℝ) :=
  (tRange 360 0 (2 * Real.pi)).map fun t => ⟨r * Real.cos t + c.x, r * Real.sin t + c.y⟩

/-- utils.py:126-131 `cross`. -/
def cross (r : ℝ) (c : Pt ℝ) : List (Pt ℝ) :=
  let r := r * (√2 / 2)
  let vx : Vec ℝ := ⟨r, r⟩
  let vy : Vec ℝ := ⟨-r, r⟩
  [c.subVec vx, c.addVector vx, c, c.subVec vy, c.addVector vy]

/-- utils.py:134-138 `plus`. -/
def plus (r : ℝ) (c : Pt ℝ) : List (Pt ℝ) :=
  let vx : Vec ℝ := ⟨r, 0⟩
  let vy : Vec ℝ := ⟨0, r⟩
  [c.subVec vx, c.addVector vx, c, c.subVec vy, c.addVector vy]

end X7.Utils
