import Verif.Spec.Draw
import Verif.Spec.Fill
import Verif.Spec.Bezier

/-!
The picture that filled areas make: each one covers what was there before.
-/

noncomputable section

namespace X7.Elem

open Classical in
/-- The colour of the point `p` after the operations on the canvas, if it was `c` before: each polygon that covers the point (by the even-odd rule) gives it
its colour. Lines and dots are left out: this is the colour of points that none of them touches. -/
def areaAt (p : Pt ℝ) : List DrawOp → Option Color → Option Color
  | [], c => c
  | .polygon pts f :: ops, c => areaAt p ops (if Covers pts p then f else c)
  | _ :: ops, c => areaAt p ops c

mutual
/-- The segments of all curves in an element that are drawn, placed by all transforms around them. (Rectangles, rounded rectangles and ellipses are left out:
they are drawn with a fixed number of points.) -/
def placed : Elem → Mat3 ℝ → List (Poly4 ℝ)
  | .curve h cps, m => (segs h.closed cps).map (Poly4.map (m.mul h.xf).apply)
  | .rect _ _ _, _ => []
  | .rrect _ _ _ _, _ => []
  | .ellipse _ _ _, _ => []
  | .group h hidden es, m => if hidden then [] else placedAll es (m.mul h.xf)
  | .holes h o i, m => placed o (m.mul h.xf) ++ placedIn i (m.mul h.xf)
def placedAll : List (Str × Elem) → Mat3 ℝ → List (Poly4 ℝ)
  | [], _ => []
  | (_, e) :: rest, m => placed e m ++ placedAll rest m
def placedIn : List Elem → Mat3 ℝ → List (Poly4 ℝ)
  | [], _ => []
  | e :: rest, m => placed e m ++ placedIn rest m
end

end X7.Elem
