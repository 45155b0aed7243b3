import Verif.Model.Rnd
import Verif.Spec.Region
import Verif.Spec.Bezier

/-!
What is said about rounded results.
-/

namespace X7

/-- The four coordinates of a box are floats. -/
def Rnd.RepBox (R : Rnd) : BBox ℝ → Prop
  | .none => True
  | .box xl yl xh yh => (R.Rep xl ∧ R.Rep yl) ∧ R.Rep xh ∧ R.Rep yh

/-- Two points differ by at most `ex` horizontally and at most `ey` vertically. -/
def Within (ex ey : ℝ) (p q : Pt ℝ) : Prop := |p.x - q.x| ≤ ex ∧ |p.y - q.y| ≤ ey

/-- The same for vectors. -/
def WithinVec (ex ey : ℝ) (v w : Vec ℝ) : Prop := |v.x - w.x| ≤ ex ∧ |v.y - w.y| ≤ ey

/-- The sizes of the three summands of the two coordinates of `m · (x, y, 1)`. -/
def rowSizeX (m : Mat3 ℝ) (p : Pt ℝ) : ℝ := |m.a| * |p.x| + |m.b| * |p.y| + |m.c|
def rowSizeY (m : Mat3 ℝ) (p : Pt ℝ) : ℝ := |m.d| * |p.x| + |m.e| * |p.y| + |m.f|

/-- Neighbouring control points: those between which a segment is drawn. -/
def neighbours {K : Type*} (closed : Bool) (cps : List (CP K)) : List (CP K × CP K) :=
  cps.zip (if closed then cps.rotate 1 else cps.tail)

/-- All coordinates of centres, and of centres and handles taken together, are at most `B`: horizontally `Bx`, vertically `By`. -/
def CP.Bounded (Bx By : ℝ) (cp : CP ℝ) : Prop :=
  (|cp.c.x| + |cp.dl.x| ≤ Bx ∧ |cp.c.x| + |cp.dr.x| ≤ Bx) ∧ |cp.c.y| + |cp.dl.y| ≤ By ∧ |cp.c.y| + |cp.dr.y| ≤ By

end X7
