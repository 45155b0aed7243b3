import Mathlib.Algebra.Order.Field.Basic
import Verif.Model.BBox

/-!
3x3 matrices as used by `Matrix` and `Transform` (x7/geom/transform.py 22-52, 84-115, 167-188, 255-300),
over any field (exact arithmetic).
-/

namespace X7

/-- transform.py:22-52 the array `ndmat` of a `Matrix`, row by row. -/
@[ext] structure Mat3 (K : Type*) where
  (a b c d e f g h i : K)
  deriving DecidableEq, Repr

namespace Mat3
variable {K : Type*} [Field K]

/-- transform.py:25 `np.identity(3)`. -/
def one : Mat3 K := ⟨1, 0, 0, 0, 1, 0, 0, 0, 1⟩

/-- transform.py:119-125 `Transform((a, b, c, d, e, f))`: last row 0, 0, 1. -/
def of6 (a b c d e f : K) : Mat3 K := ⟨a, b, c, d, e, f, 0, 0, 1⟩

/-- `np.dot(m, n)` for 3x3 arrays (transform.py:43, 47). -/
def mul (m n : Mat3 K) : Mat3 K :=
  ⟨m.a * n.a + m.b * n.d + m.c * n.g, m.a * n.b + m.b * n.e + m.c * n.h, m.a * n.c + m.b * n.f + m.c * n.i,
   m.d * n.a + m.e * n.d + m.f * n.g, m.d * n.b + m.e * n.e + m.f * n.h, m.d * n.c + m.e * n.f + m.f * n.i,
   m.g * n.a + m.h * n.d + m.i * n.g, m.g * n.b + m.h * n.e + m.i * n.h, m.g * n.c + m.h * n.f + m.i * n.i⟩

/-- Determinant (used by `inv`). -/
def det (m : Mat3 K) : K :=
  m.a * (m.e * m.i - m.f * m.h) - m.b * (m.d * m.i - m.f * m.g) + m.c * (m.d * m.h - m.e * m.g)

/-- `np.linalg.inv` (transform.py:51, 156): `LinAlgError` exactly for a singular matrix (assumption on numpy in exact
arithmetic), else the inverse, written here with the adjugate. -/
def inv [DecidableEq K] (m : Mat3 K) : Except PyErr (Mat3 K) :=
  if m.det = 0 then .error .linAlg
  else .ok
    ⟨(m.e * m.i - m.f * m.h) / m.det, (m.c * m.h - m.b * m.i) / m.det, (m.b * m.f - m.c * m.e) / m.det,
     (m.f * m.g - m.d * m.i) / m.det, (m.a * m.i - m.c * m.g) / m.det, (m.c * m.d - m.a * m.f) / m.det,
     (m.d * m.h - m.e * m.g) / m.det, (m.b * m.g - m.a * m.h) / m.det, (m.a * m.e - m.b * m.d) / m.det⟩

/-- transform.py:84-87, 278-280 `transform(x, y)`: first two coordinates of `mat · (x, y, 1)`. -/
def apply (m : Mat3 K) (p : Pt K) : Pt K :=
  ⟨m.a * p.x + m.b * p.y + m.c, m.d * p.x + m.e * p.y + m.f⟩

/-- transform.py:278-280 `transform_np_pts` for one column `(x, y, 1)`: all three coordinates. -/
def apply3 (m : Mat3 K) (p : Pt K) : K × K × K :=
  (m.a * p.x + m.b * p.y + m.c, m.d * p.x + m.e * p.y + m.f, m.g * p.x + m.h * p.y + m.i)

/-- transform.py:167-169 `translate_mat`. -/
def translateMat (dx dy : K) : Mat3 K := ⟨1, 0, dx, 0, 1, dy, 0, 0, 1⟩

/-- transform.py:171-174 `scale_mat`. -/
def scaleMat (sx sy : K) : Mat3 K := ⟨sx, 0, 0, 0, sy, 0, 0, 0, 1⟩

/-- transform.py:176-181 `rotate_mat`, given the cosine and sine. -/
def rotateMat (cos_theta sin_theta : K) : Mat3 K :=
  ⟨cos_theta, sin_theta, 0, -sin_theta, cos_theta, 0, 0, 0, 1⟩

/-- transform.py:183-188 `rotate_mat_ccw`, given the cosine and sine. -/
def rotateMatCcw (cos_theta sin_theta : K) : Mat3 K :=
  ⟨cos_theta, -sin_theta, 0, sin_theta, cos_theta, 0, 0, 0, 1⟩

/-- Last row 0, 0, 1. -/
def Affine (m : Mat3 K) : Prop := m.g = 0 ∧ m.h = 0 ∧ m.i = 1

/-- Action on a direction (the linear part). -/
def applyVec (m : Mat3 K) (v : Vec K) : Vec K := ⟨m.a * v.x + m.b * v.y, m.d * v.x + m.e * v.y⟩

end Mat3
end X7
