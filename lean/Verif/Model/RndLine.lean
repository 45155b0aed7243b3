import Verif.Model.Line
import Verif.Model.RndVec

/-!
Rounded versions of the functions on lines and segments. See Model/Rnd.lean.
-/

noncomputable section

namespace X7.Fl
variable (R : Rnd)

/-- Python's `x / y` on floats. -/
def div (x y : ℝ) : Except PyErr ℝ := if y = 0 then .error .zeroDivision else .ok (R.fl (x / y))

/-- geom.py:853-855 `Line.from_pts`, see `Line.fromPts`. -/
def lineFromPts (p1 p2 : Pt ℝ) : Line ℝ := ⟨p1, sub R p2 p1⟩

/-- geom.py:839-841 `p2`, see `Line.p2`. -/
def lineP2 (l : Line ℝ) : Pt ℝ := addVector R l.origin l.direction

/-- geom.py:868-873, 896-898 `origin + direction*t`. -/
def lineAt (l : Line ℝ) (t : ℝ) : Pt ℝ := addVector R l.origin (smul R l.direction t)

/-- geom.py:843-845 `midpoint`, see `Line.midpoint`. -/
def lineMid (l : Line ℝ) : Pt ℝ := addVector R l.origin (smul R l.direction (1 / 2))

/-- geom.py:847-848 `__add__`, see `Line.add`. -/
def lineAdd (l : Line ℝ) (v : Vec ℝ) : Line ℝ := ⟨addVector R l.origin v, l.direction⟩

/-- geom.py:850-851 `__sub__`, see `Line.sub`. -/
def lineSub (l : Line ℝ) (v : Vec ℝ) : Line ℝ := ⟨⟨R.fl (l.origin.x - v.x), R.fl (l.origin.y - v.y)⟩, l.direction⟩

/-- geom.py:857-863 `closest`; `hyp` is `math.hypot`, see `Line.closest`. -/
def lineClosest (hyp : ℝ → ℝ → ℝ) (l : Line ℝ) (point : Pt ℝ) : Except PyErr (Pt ℝ) :=
  match unit R hyp l.direction with
  | .error e => .error e
  | .ok d_unit => .ok (addVector R l.origin (smul R d_unit (dot R (sub R point l.origin) d_unit)))

/-- geom.py:878-879 `parallel`, see `Line.parallel`. -/
def lineParallel (l o : Line ℝ) : Bool := decide (cross R l.direction o.direction = 0)

/-- geom.py:871-872, 890-891, 894-895 the place on `o` where it meets `l`:
`normal.dot(l.origin-o.origin) / normal.dot(o.direction)`. -/
def lineT (l o : Line ℝ) : Except PyErr ℝ :=
  div R (dot R (normal l.direction) (sub R l.origin o.origin)) (dot R (normal l.direction) o.direction)

/-- geom.py:865-873 `intersection`, see `Line.intersection`. -/
def lineIntersection (l o : Line ℝ) : Except PyErr (Pt ℝ) :=
  if cross R l.direction o.direction = 0 then .error .parallelLine
  else match lineT R l o with
    | .error e => .error e
    | .ok t_other => .ok (lineAt R o t_other)

/-- geom.py:875-876 `segment_bbox`, see `Line.segmentBBox`. -/
def segmentBBox (l : Line ℝ) : BBox ℝ := BBox.ofPts l.origin (lineP2 R l)

/-- geom.py:881-904 `segment_intersection`; `hyp` is `math.hypot`, see `Line.segmentIntersection`. The literal `1e-7` is
rounded too. -/
def segmentIntersection (hyp : ℝ → ℝ → ℝ) (l o : Line ℝ) : Except PyErr (Option (Pt ℝ × ℝ × ℝ)) :=
  match (segmentBBox R l).overlaps (segmentBBox R o) with
  | .error e => .error e
  | .ok false => .ok none
  | .ok true =>
    if lineParallel R l o then .error .parallelLine
    else match lineT R l o with
      | .error e => .error e
      | .ok t_other =>
        if t_other < 0 ∨ t_other > 1 then .ok none
        else match lineT R o l with
          | .error e => .error e
          | .ok t_self =>
            if t_self < 0 ∨ t_self > 1 then .ok none
            else
              let p_other := lineAt R o t_other
              let p_self := lineAt R l t_self
              if ¬ hyp (sub R p_self p_other).x (sub R p_self p_other).y < R.fl (1 / 10 ^ 7) then .error .assertion
              else .ok (some (lineAt R o t_other, t_self, t_other))

end X7.Fl
