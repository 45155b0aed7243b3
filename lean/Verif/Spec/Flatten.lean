import Verif.Spec.Elem
import Verif.Spec.ElemNames
import Verif.Spec.Shapes

/-!
What flattening a tree of elements should give.
-/

noncomputable section

namespace X7.Elem

/-- The straight line from `a` to `b`. -/
def side (a b : Pt ℝ) : Set (Pt ℝ) :=
  {q | ∃ t : ℝ, 0 ≤ t ∧ t ≤ 1 ∧ q = ⟨(1 - t) * a.x + t * b.x, (1 - t) * a.y + t * b.y⟩}

/-- The outline of a basic shape in its own coordinates is the set `S`: the points on the curve, or on the four sides of the rectangle. -/
def HasOutline : Elem → Set (Pt ℝ) → Prop
  | .curve h cps, S => S = curveSet h.closed cps
  | .rect _ p1 p2, S =>
    S = side p1 ⟨p1.x, p2.y⟩ ∪ side ⟨p1.x, p2.y⟩ p2 ∪ side p2 ⟨p2.x, p1.y⟩ ∪ side ⟨p2.x, p1.y⟩ p1
  | .rrect _ p1 p2 r, S => ∃ cps, makeRoundedRect p1 p2 r = .ok cps ∧ S = curveSet true cps
  | .ellipse _ p1 p2, S => ∃ cps, makeEllipseP1P2 p1 p2 = .ok cps ∧ S = curveSet true cps
  | .group _ _ _, _ => False
  | .holes _ _ _, _ => False

mutual
/-- What the constructors and the transform operations see to: own transforms are affine, filled elements are closed, and so are
rectangles and ellipses. -/
def Made : Elem → Prop
  | .curve h _ => h.xf.Affine ∧ (h.pb.filled = true → h.closed = true)
  | .rect h _ _ => h.xf.Affine ∧ h.closed = true
  | .rrect h _ _ _ => h.xf.Affine ∧ h.closed = true
  | .ellipse h _ _ => h.xf.Affine ∧ h.closed = true
  | .group h _ es => h.xf.Affine ∧ MadeAll es
  | .holes h o i => h.xf.Affine ∧ Made o ∧ MadeIn i
def MadeAll : List (Str × Elem) → Prop
  | [] => True
  | (_, e) :: rest => Made e ∧ MadeAll rest
def MadeIn : List Elem → Prop
  | [] => True
  | e :: rest => Made e ∧ MadeIn rest
end

mutual
/-- Made of curves and visible groups only. -/
def CurvesOnly : Elem → Prop
  | .curve _ _ => True
  | .group _ hidden es => hidden = false ∧ CurvesOnlyAll es
  | .rect _ _ _ => False
  | .rrect _ _ _ _ => False
  | .ellipse _ _ _ => False
  | .holes _ _ _ => False
def CurvesOnlyAll : List (Str × Elem) → Prop
  | [] => True
  | (_, e) :: rest => CurvesOnly e ∧ CurvesOnlyAll rest
end

/-- The transform of a part of a tree: all transforms around it from the outside in, and then its own. -/
def whole (x : List Str × List (Mat3 ℝ) × Elem) : Mat3 ℝ := (x.2.1.foldl Mat3.mul Mat3.one).mul x.2.2.hdr.xf

end X7.Elem
