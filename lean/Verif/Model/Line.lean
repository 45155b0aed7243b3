import Verif.Model.VecReal
import Verif.Model.BBox

/-!
Model of `Line` (x7/geom/geom.py 815-904). The parts without square roots are over any (ordered) field,
`closest` and `segment_intersection` (its internal assertion takes a length) over ℝ.
-/

namespace X7

/-- geom.py:815-822 `Line`: origin and direction vector. -/
@[ext] structure Line (K : Type*) where
  origin : Pt K
  direction : Vec K
  deriving DecidableEq, Repr

namespace Line
section Field
variable {K : Type*} [Field K]

/-- geom.py:817-822 `Line(origin, point)`: the direction is `point - origin`. -/
def ofPt (origin point : Pt K) : Line K := ⟨origin, point.sub origin⟩

/-- geom.py:853-855 `Line.from_pts`. -/
def fromPts (p1 p2 : Pt K) : Line K := ⟨p1, p2.sub p1⟩

/-- geom.py:839-841 `p2`. -/
def p2 (l : Line K) : Pt K := l.origin.addVector l.direction

/-- geom.py:843-845 `midpoint`. -/
def midpoint (l : Line K) : Pt K := l.origin.addVector (l.direction.mul (1 / 2))

/-- geom.py:847-848 `__add__`. -/
def add (l : Line K) (v : Vec K) : Line K := ⟨l.origin.addVector v, l.direction⟩

/-- geom.py:850-851 `__sub__`. -/
def sub (l : Line K) (v : Vec K) : Line K := ⟨l.origin.subVec v, l.direction⟩

/-- geom.py:878-879 `parallel`. -/
def parallel [DecidableEq K] (l o : Line K) : Bool := decide (l.direction.cross o.direction = 0)

/-- geom.py:865-873 `intersection`. -/
def intersection [DecidableEq K] (l o : Line K) : Except PyErr (Pt K) := do
  if l.direction.cross o.direction = 0 then
    throw .parallelLine
  let normal := l.direction.normal
  let t_other ← pyDiv (normal.dot (l.origin.sub o.origin)) (normal.dot o.direction)
  return o.origin.addVector (o.direction.mul t_other)

/-- geom.py:875-876 `segment_bbox`. -/
def segmentBBox [LinearOrder K] (l : Line K) : BBox K := BBox.ofPts l.origin (l.origin.addVector l.direction)

end Field

/-- geom.py:857-863 `closest`. -/
noncomputable def closest (l : Line ℝ) (point : Pt ℝ) : Except PyErr (Pt ℝ) := do
  let to_point := point.sub l.origin
  let d_unit ← l.direction.unit
  let dot := to_point.dot d_unit
  return l.origin.addVector (d_unit.mul dot)

/-- geom.py:881-904 `segment_intersection`: `None` or `(point, t_self, t_other)`. The assertion of the `debug` branch is
modelled as `AssertionError`. -/
noncomputable def segmentIntersection (l o : Line ℝ) : Except PyErr (Option (Pt ℝ × ℝ × ℝ)) := do
  let ov ← l.segmentBBox.overlaps o.segmentBBox
  if !ov then
    return none
  if l.parallel o then
    throw .parallelLine
  let self_normal := l.direction.normal
  let t_other ← pyDiv (self_normal.dot (l.origin.sub o.origin)) (self_normal.dot o.direction)
  if t_other < 0 ∨ t_other > 1 then
    return none
  let other_normal := o.direction.normal
  let t_self ← pyDiv (other_normal.dot (o.origin.sub l.origin)) (other_normal.dot l.direction)
  if t_self < 0 ∨ t_self > 1 then
    return none
  let p_other := o.origin.addVector (o.direction.mul t_other)
  let p_self := l.origin.addVector (l.direction.mul t_self)
  if ¬ ((p_self.sub p_other).length < 1 / 10 ^ 7) then
    throw .assertion
  return some (o.origin.addVector (o.direction.mul t_other), t_self, t_other)

end Line
end X7
