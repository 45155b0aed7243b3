import Verif.Model.Elem
import Verif.Spec.Bezier

/-!
Specification of drawing trees of elements.
-/

namespace X7.Elem

mutual
/-- The shapes of a tree that are drawn, in drawing order, each with the transforms of the groups around it from the outside
in. A shape with holes counts as one shape. -/
def leaves : Elem → List (List (Mat3 ℝ) × Elem)
  | .curve h cps => [([], .curve h cps)]
  | .rect h p1 p2 => [([], .rect h p1 p2)]
  | .rrect h p1 p2 r => [([], .rrect h p1 p2 r)]
  | .ellipse h p1 p2 => [([], .ellipse h p1 p2)]
  | .group h hidden elems => if hidden then [] else (leavesAll elems).map fun x => (h.xf :: x.1, x.2)
  | .holes h o i => [([], .holes h o i)]
def leavesAll : List (Str × Elem) → List (List (Mat3 ℝ) × Elem)
  | [] => []
  | (_, e) :: rest => leaves e ++ leavesAll rest
end

/-- What drawing an element gives in a fresh context with the matrix `m`. -/
noncomputable def drawn (cfg : DCfg) (e : Elem) (m : Mat3 ℝ) : Except PyErr (List Path) := (paths cfg e ⟨m, none, []⟩).2

/-- The outline of a basic shape (curve, rectangle, rounded rectangle, ellipse) in its own coordinates: the polyline along the
curve, the corners in order and back to the first. -/
noncomputable def outline (cfg : DCfg) : Elem → Except PyErr (List (Pt ℝ))
  | .curve h cps => .ok (pathOf (max 1 (if cfg.showCps then 10 else cfg.pointsPerCurve)) (segs h.closed cps))
  | .rect _ p1 p2 => .ok [p1, ⟨p1.x, p2.y⟩, p2, ⟨p2.x, p1.y⟩, p1]
  | .rrect _ p1 p2 r => (makeRoundedRect p1 p2 r).map fun cps => pathOf 20 (segs true cps)
  | .ellipse _ p1 p2 => (makeEllipseP1P2 p1 p2).map fun cps => pathOf 20 (segs true cps)
  | .group _ _ _ => .error .notImplemented
  | .holes _ _ _ => .error .notImplemented

/-- Not a group and without holes. -/
def Basic : Elem → Prop
  | .group _ _ _ => False
  | .holes _ _ _ => False
  | _ => True

mutual
/-- What the claim about bounding boxes needs of a tree: own transforms are affine (every transform made by the API is), the
corner radius is not negative, and the outside of a shape with holes has no transform of its own. -/
def Sound : Elem → Prop
  | .curve h _ => h.xf.Affine
  | .rect h _ _ => h.xf.Affine
  | .rrect h _ _ r => h.xf.Affine ∧ 0 ≤ r
  | .ellipse h _ _ => h.xf.Affine
  | .group h _ es => h.xf.Affine ∧ SoundAll es
  | .holes h o i => h.xf.Affine ∧ o.hdr.xf = Mat3.one ∧ Sound o ∧ SoundIn i
def SoundAll : List (Str × Elem) → Prop
  | [] => True
  | (_, e) :: rest => Sound e ∧ SoundAll rest
def SoundIn : List Elem → Prop
  | [] => True
  | e :: rest => Sound e ∧ SoundIn rest
end

end X7.Elem
