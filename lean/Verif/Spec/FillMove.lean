import Verif.Spec.Fill

/-!
The edge of a polygon, and shapes mapped.
-/

noncomputable section

namespace X7.Elem

/-- The point is on a side of the polygon (the side from the last point to the first one included). -/
def OnSide (pts : List (Pt ℝ)) (p : Pt ℝ) : Prop :=
  ∃ e ∈ pts.zip (pts.rotate 1), ∃ v, 0 ≤ v ∧ v ≤ 1 ∧ p = ⟨e.1.x + v * (e.2.x - e.1.x), e.1.y + v * (e.2.y - e.1.y)⟩

/-- The transform does not flatten the plane: its linear part has a determinant other than zero. -/
def Solid (m : Mat3 ℝ) : Prop := m.a * m.e - m.b * m.d ≠ 0

/-- The path with all its points mapped. -/
def mapped (m : Mat3 ℝ) (q : Path) : Path := { q with pts := q.pts.map m.apply }

mutual
/-- The transforms of the element and of all elements in it are affine, as all transforms made by the API are. -/
def AffineOwn : Elem → Prop
  | .curve h _ => h.xf.Affine
  | .rect h _ _ => h.xf.Affine
  | .rrect h _ _ _ => h.xf.Affine
  | .ellipse h _ _ => h.xf.Affine
  | .group h _ es => h.xf.Affine ∧ AffineAll es
  | .holes h o i => h.xf.Affine ∧ AffineOwn o ∧ AffineIn i
def AffineAll : List (Str × Elem) → Prop
  | [] => True
  | (_, e) :: rest => AffineOwn e ∧ AffineAll rest
def AffineIn : List Elem → Prop
  | [] => True
  | e :: rest => AffineOwn e ∧ AffineIn rest
end

end X7.Elem
