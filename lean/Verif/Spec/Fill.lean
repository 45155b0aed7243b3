import Verif.Spec.Elem
import Mathlib.Data.List.Rotate
import Mathlib.Algebra.Ring.Parity

/-!
What a polygon fills.
-/

noncomputable section

namespace X7.Elem

/-- The line from `a` to `b` crosses the ray that runs from `p` to the right. (Of the ends of the line the lower one belongs to it and the
upper one does not.) -/
def Crosses (p a b : Pt ℝ) : Prop :=
  ¬ (p.y < a.y ↔ p.y < b.y) ∧ p.x < a.x + (p.y - a.y) / (b.y - a.y) * (b.x - a.x)

open Classical in
/-- The polygon through the points, closed by a line from the last one to the first one, covers `p` by the even-odd rule: a ray from `p` crosses
its sides an odd number of times. -/
def Covers (pts : List (Pt ℝ)) (p : Pt ℝ) : Prop :=
  Odd ((pts.zip (pts.rotate 1)).countP fun e => decide (Crosses p e.1 e.2))

/-- The path ends where it starts. -/
def Returns (q : Path) : Prop := q.pts.head? = q.pts.getLast?

/-- A simple shape, or a closed curve. -/
def ClosedShape : Elem → Prop
  | .curve h _ => h.closed = true
  | .group _ _ _ => False
  | .holes _ _ _ => False
  | _ => True

end X7.Elem
