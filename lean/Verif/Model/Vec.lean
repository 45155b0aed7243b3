import Mathlib.Algebra.Order.Field.Basic
import Verif.Py.Basic

/-!
Model of `Vector` and of the coordinate part of points (x7/geom/geom.py 60-412, 415-417).
`K` is the number type (exact arithmetic). Point names do not matter here; they are part of the
heap model in `Verif/Model/PointHeap.lean`.
-/

namespace X7

/-- x7/geom/geom.py:60-211 `Vector`: the value `(_x, _y)`. -/
@[ext] structure Vec (K : Type*) where
  x : K
  y : K
  deriving DecidableEq, Repr

/-- x7/geom/geom.py:274-476 a point, reduced to what `xy()` returns. -/
@[ext] structure Pt (K : Type*) where
  x : K
  y : K
  deriving DecidableEq, Repr

namespace Vec
variable {K : Type*} [Field K]

/-- geom.py:85-87 `Vector.__bool__`: true if x or y is non-zero. -/
def toBool [DecidableEq K] (v : Vec K) : Bool := !(v.x == 0) || !(v.y == 0)

/-- geom.py:179-186 `Vector.__add__`, branch for another Vector. -/
def add (a b : Vec K) : Vec K := ⟨a.x + b.x, a.y + b.y⟩

/-- geom.py:191-195 `Vector.sub_vector(self, other)`: returns `other - self`. -/
def subVector (self other : Vec K) : Vec K := ⟨other.x - self.x, other.y - self.y⟩

/-- geom.py:188-189 `Vector.__sub__(self, other)` = `other.sub_vector(self)`, `other` a Vector. -/
def sub (a b : Vec K) : Vec K := subVector b a

/-- geom.py:197-203 `Vector.__mul__`, `__rmul__` by a number. -/
def mul (a : Vec K) (k : K) : Vec K := ⟨a.x * k, a.y * k⟩

/-- geom.py:205-207 `Vector.__truediv__`: both divisions raise for zero. -/
def truediv [DecidableEq K] (a : Vec K) (k : K) : Except PyErr (Vec K) := do
  let x ← pyDiv a.x k
  let y ← pyDiv a.y k
  return ⟨x, y⟩

/-- geom.py:209-211 `Vector.__neg__`. -/
def neg (a : Vec K) : Vec K := ⟨-a.x, -a.y⟩

/-- geom.py:153-156 `Vector.normal`. -/
def normal (a : Vec K) : Vec K := ⟨a.y, -a.x⟩

/-- geom.py:158-162 `Vector.dot`. -/
def dot (a b : Vec K) : K := a.x * b.x + a.y * b.y

/-- geom.py:164-168 `Vector.cross`. -/
def cross (a b : Vec K) : K := a.x * b.y - a.y * b.x

/-- geom.py:120-122 `Vector.p`. -/
def p (a : Vec K) : Pt K := ⟨a.x, a.y⟩

end Vec

namespace Pt
variable {K : Type*} [Field K]

/-- geom.py:310-313 `BasePoint.add_vector`. -/
def addVector (p : Pt K) (v : Vec K) : Pt K := ⟨p.x + v.x, p.y + v.y⟩

/-- geom.py:404-408 `BasePoint.__sub__` with a point: a Vector. -/
def sub (p q : Pt K) : Vec K := ⟨p.x - q.x, p.y - q.y⟩

/-- geom.py:404-408 `BasePoint.__sub__` with a Vector: a Point. -/
def subVec (p : Pt K) (v : Vec K) : Pt K := ⟨p.x - v.x, p.y - v.y⟩

/-- geom.py:410-412 `BasePoint.__neg__`. -/
def neg (p : Pt K) : Pt K := ⟨-p.x, -p.y⟩

/-- geom.py:326-330 `BasePoint.mid`. -/
def mid (p q : Pt K) : Pt K := ⟨(p.x + q.x) / 2, (p.y + q.y) / 2⟩

/-- geom.py:340-342 `BasePoint.v`. -/
def v (p : Pt K) : Vec K := ⟨p.x, p.y⟩

end Pt

/-- Operands of `+` and `-`: a point, a vector, or a plain number. -/
inductive Val (K : Type*)
  | pt (p : Pt K)
  | vec (v : Vec K)
  | num (k : K)
  deriving DecidableEq, Repr

section Dispatch
variable {K : Type*} [Field K]

/-- Python's `a + b`. geom.py:179-186 `Vector.__add__`, 391-396 `BasePoint.__add__`.
* Vector + point: the point has `add_vector`, so `other.add_vector(self)`.
* Vector + Vector: componentwise.
* Vector + number: `NotImplemented`, a number has no `__radd__` for it: `TypeError`.
* point + Vector: `other + self`, i.e. the first case.
* point + anything else: `NotImplemented`, hence `TypeError`.
* number + Vector/point: neither class defines `__radd__`: `TypeError`. -/
def pyAdd : Val K → Val K → Except PyErr (Val K)
  | .vec v, .pt p => .ok (.pt (p.addVector v))
  | .vec a, .vec b => .ok (.vec (a.add b))
  | .vec _, .num _ => .error .type
  | .pt p, .vec v => .ok (.pt (p.addVector v))
  | .pt _, .pt _ => .error .type
  | .pt _, .num _ => .error .type
  | .num a, .num b => .ok (.num (a + b))
  | .num _, .pt _ => .error .type
  | .num _, .vec _ => .error .type

/-- Python's `a - b`. geom.py:188-195 `Vector.__sub__`, `sub_vector`, 315-318 `BasePoint.sub_vector`,
404-408 `BasePoint.__sub__`.
* Vector - Vector: `other.sub_vector(self)`.
* Vector - point: `BasePoint.sub_vector` returns `NotImplemented`, no `__rsub__`: `TypeError`.
* Vector - number: a number has no attribute `sub_vector`: `AttributeError`.
* point - Vector: a Point; point - point: a Vector; point - number: no `xy`: `AttributeError`. -/
def pySub : Val K → Val K → Except PyErr (Val K)
  | .vec a, .vec b => .ok (.vec (Vec.subVector b a))
  | .vec _, .pt _ => .error .type
  | .vec _, .num _ => .error .attribute
  | .pt p, .vec v => .ok (.pt (p.subVec v))
  | .pt p, .pt q => .ok (.vec (p.sub q))
  | .pt _, .num _ => .error .attribute
  | .num a, .num b => .ok (.num (a - b))
  | .num _, .pt _ => .error .type
  | .num _, .vec _ => .error .type

end Dispatch

section Area
variable {K : Type*} [Field K]

/-- geom.py:415-417 `polygon_area`. -/
def polygonArea (points : List (Pt K)) : K :=
  ((iterRotate2 points).map (fun ab => ab.1.x * ab.2.y - ab.1.y * ab.2.x)).sum / 2

end Area

end X7
